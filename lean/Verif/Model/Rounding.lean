import Verif.Model.Filter
import Mathlib.Data.Int.Log
import Mathlib.Algebra.Order.Round

/-!
# Floating-point versions of the weighted degrees, of the combinatorial Laplacian and of `cheby_op`

Everywhere else in the model the arithmetic is exact.  Here every operation of the code is followed by a rounding `fl`, as IEEE 754 prescribes: the
floating-point `a + b` is `fl (a + b)`, and so on.  `fl` is a parameter; what is assumed about it is `Spec.Rounds`.  Underflow, overflow and NaN are not modelled,
nor the fused multiply-add that a compiler may use in the loops of scipy.
-/

namespace PyGSP

open Matrix

variable {n : ℕ}

/-- One entry of `A.dot(y)` for a CSR matrix `A` (scipy's `csr_matvec`): starting from zero, the products of the stored entries of the row are added in the order of the columns. -/
noncomputable def dotFl (fl : ℝ → ℝ) (a y : Fin n → ℝ) : ℝ :=
  ((List.finRange n).filter fun j => a j ≠ 0).foldl (fun acc j => fl (acc + fl (a j * y j))) 0

/-- `Graph.dw` (`graph.py:830-838`): scipy's `W.sum(axis=0)` and `W.sum(axis=1)` are products with a vector of ones. -/
noncomputable def dwFl (fl : ℝ → ℝ) (W : Sp n n ℝ) (i : Fin n) : ℝ :=
  if isDirected W then fl (fl (dotFl fl (fun j => W.dense j i) (fun _ => 1) + dotFl fl (fun j => W.dense i j) fun _ => 1) / 2)
  else dotFl fl (fun j => W.dense j i) fun _ => 1

/-- The matrix `W` of `compute_laplacian` (`graph.py:613-616`): `utils.symmetrize(self.W, method="average")` is `(W + W.T) / 2` (`utils.py:247-248`). -/
noncomputable def symFl (fl : ℝ → ℝ) (W : Sp n n ℝ) (i j : Fin n) : ℝ :=
  if isDirected W then fl (fl (W.dense i j + W.dense j i) / 2) else W.dense i j

/-- `compute_laplacian("combinatorial")` (`graph.py:618-620`): `sparse.diags(self.dw) - W`. -/
noncomputable def combLapFl (fl : ℝ → ℝ) (W : Sp n n ℝ) : Matrix (Fin n) (Fin n) ℝ :=
  Matrix.of fun i j => fl ((if i = j then dwFl fl W i else 0) - symFl fl W i j)

/-- One iteration of the loop of `cheby_op` (`approximations.py:106-112`). -/
noncomputable def chebStepFl (fl : ℝ → ℝ) {ns q : ℕ} (factor : Matrix (Fin n) (Fin n) ℝ) (c : Fin q → ℕ → ℝ) (st : ChebState n ns q) (k : ℕ) : ChebState n ns q :=
  let new := Matrix.of fun v j => fl (dotFl fl (factor v) (fun w => st.cur w j) - st.old v j)
  { old := st.cur, cur := new, r := fun i => Matrix.of fun v j => fl (st.r i v j + fl (c i k * new v j)) }

/-- The arithmetic of `cheby_op` (`approximations.py:93-114`) for `M` coefficients per filter (`M >= 2`). -/
noncomputable def chebLoopFl (fl : ℝ → ℝ) {ns q : ℕ} (L : Matrix (Fin n) (Fin n) ℝ) (lmax : ℝ) (M : ℕ) (c : Fin q → ℕ → ℝ)
    (X : Matrix (Fin n) (Fin ns) ℝ) : ChebState n ns q :=
  let a1 := fl (fl (lmax - 0) / 2)
  let a2 := fl (fl (lmax + 0) / 2)
  let cur := Matrix.of fun v j => fl (fl (dotFl fl (L v) (fun w => X w j) - fl (a2 * X v j)) / a1)
  let factor := Matrix.of fun v w => fl (fl (2 / a1) * fl (L v w - if v = w then fl (a2 * 1) else 0))
  (List.range' 2 (M - 2)).foldl (chebStepFl fl factor c)
    { old := X, cur := cur, r := fun i => Matrix.of fun v j => fl (fl (fl (1 / 2 * c i 0) * X v j) + fl (c i 1 * cur v j)) }

/-- `cheby_op` (`approximations.py:58-114`) on a 2-D signal, in floating-point arithmetic, for the stored Laplacian and largest frequency. -/
noncomputable def chebyOpFl (fl : ℝ → ℝ) (S : Solvers n) {ns q M : ℕ} (c : Fin q → Fin M → ℝ) (X : Matrix (Fin n) (Fin ns) ℝ)
    (s : GState n) : Py (Matrix (Fin (q * n)) (Fin ns) ℝ) × GState n :=
  if M < 2 then (.error .typeError, s)
  else
    match Bank.lmaxNum S s with
    | (.error e, s) => (.error e, s)
    | (.ok l, s) =>
      if fl (fl (l - 0) / 2) = 0 then (.error .zeroDivisionError, s)
      else
        let c' : Fin q → ℕ → ℝ := fun i k => if h : k < M then c i ⟨k, h⟩ else 0
        let r := (chebLoopFl fl s.L l M c' X).r
        (.ok (Matrix.of fun row j => r (finProdFinEquiv.symm row).1 (finProdFinEquiv.symm row).2 j), s)

namespace Spec

/-- What is assumed about the rounding: a relative error of at most `u`, and halving commutes with it (the binary formats, away from underflow). -/
structure Rounds (fl : ℝ → ℝ) (u : ℝ) : Prop where
  nonneg : 0 ≤ u
  err : ∀ x, |fl x - x| ≤ u * |x|
  half : ∀ x, fl (x / 2) = fl x / 2

/-- Rounding to the nearest number with `p` binary digits (binary64: `p = 53`), without bounds on the exponent. -/
noncomputable def nearest (p : ℕ) (x : ℝ) : ℝ :=
  round (x * (2 : ℝ) ^ ((p : ℤ) - 1 - Int.log 2 |x|)) * (2 : ℝ) ^ (Int.log 2 |x| - ((p : ℤ) - 1))

end Spec

end PyGSP
