import Verif.Model.RoundedFourier

/-!
# Floating-point versions of `dirichlet_energy`, of the differential operator, of `grad` and of `div`

As in `Verif.Model.Rounding`, every operation is followed by a rounding `fl`.  The square roots are correctly rounded, as IEEE 754 prescribes.
-/

namespace PyGSP

open Matrix

variable {n : ℕ}

/-- `Graph.dirichlet_energy` (`graph.py:701-702`): `x.T.dot(self.L.dot(x))`, where `L.dot(x)` is a loop of scipy and `x.T.dot` a BLAS dot product (a relation, see `DotAny`). -/
def EnergyFl (fl : ℝ → ℝ) (L : Matrix (Fin n) (Fin n) ℝ) (x : Fin n → ℝ) (r : ℝ) : Prop := DotAny fl x (fun v => dotFl fl (L v) x) Finset.univ r

/-- The two values stored for an edge by `compute_differential_operator` (`difference.py:151-161`).  The third branch is not reached, see `diffValues`. -/
noncomputable def diffValuesFl (fl : ℝ → ℝ) (W : Sp n n ℝ) (lt : LapType) (e : Fin n × Fin n × ℝ) : ℝ × ℝ :=
  let v : ℝ × ℝ := match lt with
    | .combinatorial => (-fl (√e.2.2), -(-fl (√e.2.2)))
    | .normalized => (-fl (√(fl (e.2.2 / dwFl fl W e.1))), fl (√(fl (e.2.2 / dwFl fl W e.2.1))))
    | .other _ => (0, 0)
  if isDirected W then (fl (v.1 / fl (√2)), fl (v.2 / fl (√2))) else v

/-- `compute_differential_operator` (`difference.py:147-166`).  The only positions that are stored twice are those of self-loops, where the two values are opposite: their sum is exact. -/
noncomputable def diffMatrixFl (fl : ℝ → ℝ) (W : Sp n n ℝ) (lt : LapType) (es : List (Fin n × Fin n × ℝ)) : Sp n es.length ℝ :=
  Sp.eliminateZeros (Sp.sumDuplicates
    ⟨((List.finRange es.length).map fun k => ((es.get k).1, k, (diffValuesFl fl W lt (es.get k)).1)) ++
     ((List.finRange es.length).map fun k => ((es.get k).2.1, k, (diffValuesFl fl W lt (es.get k)).2))⟩)

/-- `compute_differential_operator` (`difference.py:144-166`), see `Graph.diffOp`. -/
noncomputable def Graph.diffOpFl (fl : ℝ → ℝ) (g : Graph n ℝ) : Py (Σ m, Sp n m ℝ) :=
  match g.getEdgeList with
  | .error e => .error e
  | .ok es =>
    match g.lapType with
    | .other _ => .error .valueError
    | lt => .ok ⟨es.length, diffMatrixFl fl g.W lt es⟩

/-- `DifferenceMixIn.grad` (`difference.py:244`): `D.T.dot(x)`, the products being added in the order of the vertices. -/
noncomputable def gradFl (fl : ℝ → ℝ) {m : ℕ} (D : Sp n m ℝ) (x : Fin n → ℝ) (k : Fin m) : ℝ := dotFl fl (fun v => D.dense v k) x

/-- `DifferenceMixIn.div` (`difference.py:331`): `D.dot(y)`, the products being added in the order of the edges (scipy's `csc_matvec`). -/
noncomputable def divFl (fl : ℝ → ℝ) {m : ℕ} (D : Sp n m ℝ) (y : Fin m → ℝ) (v : Fin n) : ℝ := dotFl fl (fun k => D.dense v k) y

namespace Spec

/-- Rounding to the nearest number with `p` binary digits, ties away from zero: a rounding that is an odd function, as those of IEEE 754. -/
noncomputable def nearestOdd (p : ℕ) (x : ℝ) : ℝ := if 0 ≤ x then nearest p x else -nearest p (-x)

end Spec

end PyGSP
