import Verif.Model.LiveFilter

/-!
# Pictures of filter banks (`pygsp/plotting.py:199-323`, `filter.py:761-783`)

The model is what is given to the drawing library: the points of the curves, of the sum of the squares, of the eigenvalues.

Simplifications: no keyword arguments for matplotlib; colors and the texts of the title, labels and axes are not modelled.
-/

namespace PyGSP

variable {p : ℕ} {size : Fin p → ℕ}

/-- `np.linspace(0, l, n)` (`plotting.py:270`). -/
noncomputable def linspace (l : ℝ) (n : ℕ) : List ℝ := List.ofFn fun j : Fin n => (j : ℝ) * (l / ((n - 1 : ℕ) : ℝ))

/-- What is drawn for a bank of `q` filters. -/
structure FilterPicture (q : ℕ) where
  /-- the abscissae of the curves -/
  x : List ℝ
  /-- the curve of each filter (ordinates) -/
  curves : Fin q → Fin x.length → ℝ
  /-- the sum of the squares -/
  total : Option (Fin x.length → ℝ)
  /-- the vertical lines, their abscissae, and the dots on the curves -/
  marks : Option (Σ k, (Fin k → ℝ) × (Fin q → Fin k → ℝ) × Option (Fin k → ℝ))
  /-- whether the curves are labelled and there is a legend -/
  legend : Bool

/-- `np.sum(y**2, 1)` (`plotting.py:286, 319`). -/
noncomputable def sumSq {q k : ℕ} (y : Fin q → Fin k → ℝ) : Fin k → ℝ := fun j => ∑ i, y i j ^ 2

namespace LFilter

/-- The curves and their sum, once the abscissae are known (`plotting.py:280-281, 285-286`). -/
noncomputable def plotCurves (f : LFilter size) (x : List ℝ) (sum legend : Bool)
    (marks : Option (Σ k, (Fin k → ℝ) × (Fin f.Nf → Fin k → ℝ) × Option (Fin k → ℝ))) (y : Fin f.Nf → Fin x.length → ℝ) : FilterPicture f.Nf where
  x := x
  curves := y
  total := if sum then some (sumSq y) else none
  marks := marks
  legend := legend

/-- `_plt_plot_filter` with the eigenvalues (`plotting.py:275-321`): `G.e` is read after `G.lmax`, the filters are evaluated afterwards. -/
noncomputable def plotMarked (S : Sols size) (f : LFilter size) (grid : List ℝ) (sum legend : Bool) (h : Heap size) :
    Py (FilterPicture f.Nf) × Heap size :=
  match h.at f.graph (fun s => s.getBasis (S f.graph)) with
  | (.error e, h) => (.error e, h)
  | (.ok none, h) => (.error .valueError, h)
  | (.ok (some b), h) =>
    match f.evaluate h ((grid ++ List.ofFn b.e).mergeSort (fun u v => decide (u ≤ v))).get with
    | (.error e, h) => (.error e, h)
    | (.ok y, h) =>
      match f.evaluate h b.e with
      | (.error e, h) => (.error e, h)
      | (.ok z, h) =>
        (.ok (f.plotCurves ((grid ++ List.ofFn b.e).mergeSort (fun u v => decide (u ≤ v))) sum legend
          (some ⟨b.k, b.e, z, if sum then some (sumSq z) else none⟩) y), h)

/-- `_plt_plot_filter` without the eigenvalues (`plotting.py:280-293`). -/
noncomputable def plotPlain (f : LFilter size) (grid : List ℝ) (sum legend : Bool) (h : Heap size) : Py (FilterPicture f.Nf) × Heap size :=
  match f.evaluate h grid.get with
  | (.error e, h) => (.error e, h)
  | (.ok y, h) => (.ok (f.plotCurves grid sum legend none y), h)

/-- `Filter.plot(n, eigenvalues, sum, labels)` (`filter.py:761-783`, `plotting.py:199-323`). -/
noncomputable def plot (S : Sols size) (f : LFilter size) (n : ℕ) (eigenvalues sum labels : Option Bool) (h : Heap size) :
    Py (FilterPicture f.Nf) × Heap size :=
  let eigenvalues := eigenvalues.getD (h f.graph).basis.isSome
  let sum := sum.getD (decide (1 < f.Nf))
  let labels := labels.getD (decide (1 < f.Nf))
  match h.at f.graph (Bank.lmaxNum (S f.graph)) with
  | (.error e, h) => (.error e, h)
  | (.ok l, h) =>
    if eigenvalues then f.plotMarked S (linspace l n) sum labels h else f.plotPlain (linspace l n) sum labels h

end LFilter

end PyGSP
