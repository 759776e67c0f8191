import Verif.Model.NNGraph
import Verif.Model.Generators
import Verif.Model.Array

/-!
# `pygsp/graphs/nngraphs/imgpatches.py`, `pygsp/graphs/nngraphs/grid2dimgpatches.py`

Images are arrays of floats.  The optional package `skimage` is installed; `skimage.util.view_as_windows` is modelled as documented.  `patch_shape` is a sequence of
nonnegative integers.  The attributes `img`, `patch_shape`, `plotting` and the strings of `repr` are not modelled.
-/

namespace PyGSP.Gen

open Matrix

/-- Where `np.pad(mode='symmetric')` reads the value at position `q` (which may be negative) of an axis of length `h`: reflections at both ends. -/
def reflect (h : ℕ) (q : ℤ) : ℕ :=
  let m := (q % (2 * h : ℤ)).toNat
  if m < h then m else 2 * h - 1 - m

/-- `h, w, d` (`imgpatches.py:55-62`): `d = 0` for an image with two dimensions; otherwise a message is printed and the names are not bound, which raises UnboundLocalError
when `d` is read, after `patch_shape` has been (`imgpatches.py:75`). -/
def imgShape : List ℕ → Option (ℕ × ℕ × ℕ)
  | [h, w, d] => some (h, w, d)
  | [h, w] => some (h, w, 0)
  | _ => none

/-- `r, c` (`imgpatches.py:64-68`): the first element when there are not two. -/
def patchShape : List ℕ → Py (ℕ × ℕ)
  | [r, c] => .ok (r, c)
  | r :: _ => .ok (r, r)
  | [] => .error .indexError

/-- `int((r - 0.5) / 2.0)` and `int((r + 0.5) / 2.0)` (`imgpatches.py:70-73`). -/
def padWidth (r : ℕ) : ℕ × ℕ := ((r - 1) / 2, r / 2)

/-- The number of positions of a window of length `r` in an axis of length `h` padded by `p`; `view_as_windows` raises ValueError when there is none or the window is empty, and
`np.pad` when the axis is empty (`imgpatches.py:83`, `imgpatches.py:97`). -/
def windows (h r : ℕ) (p : ℕ × ℕ) : Py ℕ :=
  if h = 0 ∨ r = 0 ∨ p.1 + h + p.2 < r then .error .valueError else .ok (p.1 + h + p.2 - r + 1)

/-- `patches` (`imgpatches.py:51-98`): one row for each position of the window, one column for each pixel of the window and each channel.  When `d = 0` although the image has
three dimensions, `pad_width` does not have enough entries and `np.pad` raises ValueError; `reshape` raises ValueError when the number of positions is not `h * w`. -/
def imgFeatures (img : Arr) (patch : List ℕ) : Py (Σ N d : ℕ, Fin N → Fin d → ℝ) := do
  let (r, c) ← patchShape patch
  match imgShape img.shape with
  | none => .error .nameError
  | some (h, w, d) =>
    if d = 0 ∧ img.ndim = 3 then .error .valueError
    else
      let D := if d = 0 then 1 else d
      let n1 ← windows h r (padWidth r)
      let n2 ← windows w c (padWidth c)
      if n1 * n2 * (r * c * D) ≠ h * w * (r * c * D) then .error .valueError
      else
        .ok ⟨h * w, r * c * D, fun p f =>
          let i := p.val / n2
          let j := p.val % n2
          let a := f.val / (c * D)
          let b := f.val / D % c
          let ch := f.val % D
          let x := reflect h ((i : ℤ) + a - (padWidth r).1)
          let y := reflect w ((j : ℤ) + b - (padWidth c).1)
          img.val (if d = 0 then [x, y] else [x, y, ch])⟩

/-- `ImgPatches(img, patch_shape, **kwargs)` (`imgpatches.py:51-100`): the graph and its coordinates. -/
noncomputable def imgPatches (img : Arr) (patch : List ℕ) (type : NNType) (center rescale : Bool) (k : ℕ) (sigma : Option ℝ) (epsilon : ℝ)
    (method : SymMethod) (dist : DistType) (nn : (N : ℕ) → Fin N → List (Fin N)) (lt : LapType) : Py (Σ N d : ℕ, Graph N ℝ × (Fin N → Fin d → ℝ)) := do
  let ⟨N, d, X⟩ ← imgFeatures img patch
  let r ← nnGraph X type center rescale k sigma epsilon method dist (nn N) lt
  .ok ⟨N, d, r⟩

/-- The number of rows and of columns of an image (`grid2dimgpatches.py:39`): IndexError when a dimension is missing. -/
def imgSize : List ℕ → Py (ℕ × ℕ)
  | h :: w :: _ => .ok (h, w)
  | _ => .error .indexError

/-- `coords` of `Grid2d(N1, N2)` (`grid2d.py:80-83`): `x` repeats `0, 1/N2, ...`, and `y`, sorted, decreases from `(N1 - 1)/N1` to zero. -/
noncomputable def gridCoords (N1 N2 : ℕ) : Fin (N1 * N2) → Fin 2 → ℝ :=
  fun p => ![((p.val % N2 : ℕ) : ℝ) / N2, ((N1 - 1 - p.val / N2 : ℕ) : ℝ) / N1]

/-- `Grid2dImgPatches(img, aggregate, **kwargs)` (`grid2dimgpatches.py:37-42`): the graph and its coordinates; `aggregate` is a function of two square matrices of the same
size (by default their sum).  When the matrices do not have the same size, ValueError. -/
noncomputable def grid2dImgPatches (img : Arr) (aggregate : (N : ℕ) → Matrix (Fin N) (Fin N) ℝ → Matrix (Fin N) (Fin N) ℝ → Matrix (Fin N) (Fin N) ℝ) (patch : List ℕ)
    (type : NNType) (center rescale : Bool) (k : ℕ) (sigma : Option ℝ) (epsilon : ℝ) (method : SymMethod) (dist : DistType) (nn : (N : ℕ) → Fin N → List (Fin N))
    (lt : LapType) : Py (Σ N : ℕ, Graph N ℝ × (Fin N → Fin 2 → ℝ)) := do
  let (h, w) ← imgSize img.shape
  let Gg ← grid2d h w 0 .combinatorial
  let ⟨N, _, Gp, _⟩ ← imgPatches img patch type center rescale k sigma epsilon method dist nn lt
  if e : N = h * w then
    let g ← Graph.ofCsr (Sp.ofDense (aggregate (h * w) (e ▸ Gp.W.dense) Gg.W.dense)) .combinatorial
    .ok ⟨h * w, g, gridCoords h w⟩
  else .error .valueError

end PyGSP.Gen
