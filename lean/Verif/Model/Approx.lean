import Verif.Model.Filter
import Mathlib.Analysis.SpecialFunctions.Trigonometric.Inverse

/-!
# The other approximations of `pygsp/filters/approximations.py`
-/

namespace PyGSP

open Matrix Real

variable {n : ℕ}

/-! ### `cheby_rect` -/

/-- The variables of the loop of `cheby_rect`: `T_old`, `T_cur`, `r`. -/
structure RectState (n ns : ℕ) where
  old : Matrix (Fin n) (Fin ns) ℝ
  cur : Matrix (Fin n) (Fin ns) ℝ
  r : Matrix (Fin n) (Fin ns) ℝ

/-- One iteration of the loop of `cheby_rect` (`approximations.py:157-161`), for degree `k`. -/
noncomputable def rectStep {ns : ℕ} (factor : Matrix (Fin n) (Fin n) ℝ) (b1 b2 : ℝ) (st : RectState n ns) (k : ℕ) :
    RectState n ns :=
  let new := factor * st.cur - st.old
  { old := st.cur, cur := new, r := st.r + (2 / (k * π) * (sin (k * b1) - sin (k * b2))) • new }

/-- The arithmetic of `cheby_rect` (`approximations.py:150-163`), `m = order + 1`. -/
noncomputable def rectLoop {ns : ℕ} (L : Matrix (Fin n) (Fin n) ℝ) (lmax b1 b2 : ℝ) (m : ℕ) (X : Matrix (Fin n) (Fin ns) ℝ) :
    RectState n ns :=
  let factor := (4 / lmax) • L - (2 : ℝ) • (1 : Matrix (Fin n) (Fin n) ℝ)
  let cur := (1 / 2 : ℝ) • (factor * X)
  (List.range' 2 (m - 2)).foldl (rectStep factor b1 b2)
    { old := X, cur := cur, r := ((b1 - b2) / π) • X + (2 / π * (sin b1 - sin b2)) • cur }

/-- `cheby_rect` (`approximations.py:117-163`) on a 2-D signal.  `bounds` is a list or an array, given by its entries; anything
else (a tuple for instance) is `none` and raises ValueError, as does a wrong length.  `order` is any integer (`int(order + 1)`).
`np.arccos` of a number outside `[-1, 1]` is NaN, and so is the division by `lmax = 0`: results that contain NaN are not
modelled (`unmodelled`). -/
noncomputable def chebyRect (S : Solvers n) {ns : ℕ} (bounds : Option (List ℝ)) (X : Matrix (Fin n) (Fin ns) ℝ) (order : ℤ)
    (s : GState n) : Py (Matrix (Fin n) (Fin ns) ℝ) × GState n :=
  match bounds with
  | some [lo, hi] =>
    let m := (order + 1).toNat
    match Bank.lmaxNum S s with
    | (.error e, s) => (.error e, s)
    | (.ok l, s) =>
      let x1 := 2 * lo / l - 1
      let x2 := 2 * hi / l - 1
      if l = 0 ∨ x1 < -1 ∨ 1 < x1 ∨ x2 < -1 ∨ 1 < x2 then (.error .unmodelled, s)
      else (.ok (rectLoop s.L l (arccos x1) (arccos x2) m X).r, s)
  | _ => (.error .valueError, s)

/-! ### `compute_jackson_cheby_coeff` -/

/-- What the function leaves behind: the returned pair `(ch, jch)` or the exception, and the caller's list `filter_bounds`. -/
structure JacksonOut (m : ℕ) where
  result : Py ((Fin (m + 1) → ℝ) × (Fin (m + 1) → ℝ))
  bounds : ℝ × ℝ

/-- The coefficients `ch` (`approximations.py:204-210`), from the rescaled bounds. -/
noncomputable def rectCoeff (x1 x2 : ℝ) (i : ℕ) : ℝ :=
  if i = 0 then 2 / π * (arccos x1 - arccos x2) else 2 / (π * i) * (sin (i * arccos x1) - sin (i * arccos x2))

/-- The damping factors `jch` before the product (`approximations.py:214-220`). -/
noncomputable def jacksonFactor (m i : ℕ) : ℝ :=
  let alpha := π / (m + 2)
  1 / sin alpha * ((1 - i / (m + 2)) * sin alpha * cos (i * alpha) + 1 / (m + 2) * cos alpha * sin (i * alpha))

/-- `compute_jackson_cheby_coeff` (`approximations.py:166-225`).  `raise ()` raises TypeError ("exceptions must derive from
BaseException").  `filter_bounds` and `delta_lambda` are lists of Python numbers: the division by `a1 = 0` raises
ZeroDivisionError, in the first assignment.  A bound whose rescaled value is outside `[-1, 1]` makes `np.arccos` return NaN
(`unmodelled`); by the checks this is only possible when the bounds are not in increasing order.  `m` is a natural number. -/
noncomputable def jacksonCoeff (bounds delta : ℝ × ℝ) (m : ℕ) : JacksonOut m :=
  if delta.1 > bounds.1 ∨ delta.2 < bounds.2 then ⟨.error .typeError, bounds⟩
  else if delta.1 > delta.2 then ⟨.error .typeError, bounds⟩
  else
    let a1 := (delta.2 - delta.1) / 2
    let a2 := (delta.2 + delta.1) / 2
    if a1 = 0 then ⟨.error .zeroDivisionError, bounds⟩
    else
      let x1 := (bounds.1 - a2) / a1
      let x2 := (bounds.2 - a2) / a1
      if x1 < -1 ∨ 1 < x1 ∨ x2 < -1 ∨ 1 < x2 then ⟨.error .unmodelled, (x1, x2)⟩
      else
        let ch : Fin (m + 1) → ℝ := fun i => rectCoeff x1 x2 i
        ⟨.ok (ch, fun i => ch i * jacksonFactor m i), (x1, x2)⟩

end PyGSP
