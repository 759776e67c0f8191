import Verif.Model.Learning
import Verif.Model.Filter
import Verif.Model.Subgraph

/-!
# `pygsp/reduction.py`: Kron reduction, interpolation, pyramid

Exact arithmetic.  Not modelled: `_pyramid_single_interpolation` (reads undefined names), `tree_multiresolution` and
`_tree_depths` (pass an unknown argument `A` to `Graph`).
-/

namespace PyGSP

open Matrix Learning

variable {n k : ℕ}

namespace Reduction

/-- the vertices that are kept -/
def kept (ind : Fin k → Fin n) (v : Fin n) : Bool := decide (∃ a, ind a = v)

/-- `np.spacing(1)` -/
noncomputable def spacing1 : ℝ := 1 / 2 ^ 52

/-- `np.spacing(1000)` -/
noncomputable def spacing1000 : ℝ := 1 / 2 ^ 43

/-- `kron_reduction(L, ind)` for a matrix (`reduction.py:350-362`); `ind` are positions in range, `ind_comp` the others.
Simplifications: no vertex kept or no vertex eliminated (matrices without entries) and a singular `L_comp` (scipy returns
NaN) are not modelled. -/
noncomputable def kronMatrix (L : Matrix (Fin n) (Fin n) ℝ) (ind : Fin k → Fin n) : Py (Matrix (Fin k) (Fin k) ℝ) :=
  if k = 0 ∨ ∀ v, kept ind v = true then .error .unmodelled
  else
    let Lred : Matrix (Fin k) (Fin k) ℝ := Matrix.of fun a b => L (ind a) (ind b)
    let Linout : Matrix (Fin k) (Unlabelled (kept ind)) ℝ := Matrix.of fun a u => L (ind a) u.1
    let Loutin : Matrix (Unlabelled (kept ind)) (Fin k) ℝ := Matrix.of fun u b => L u.1 (ind b)
    let Lcomp : Matrix (Unlabelled (kept ind)) (Unlabelled (kept ind)) ℝ := Matrix.of fun u v => L u.1 v.1
    open Classical in
    if Lcomp.det = 0 then .error .unmodelled
    else
      let Lnew := Lred - Linout * (Lcomp⁻¹ * Loutin)
      if (∑ a, ∑ b, |Lnew a b - Lnew b a|) < spacing1 * ∑ a, ∑ b, |Lnew a b| then
        .ok (Matrix.of fun a b => (Lnew a b + Lnew b a) / 2)
      else .ok Lnew

/-- The attribute `coords` of a graph: absent, a 0-d array, or one row per vertex. -/
inductive Coords (n : ℕ) (R : Type)
  | missing
  | scalar
  | rows (c : Fin n → R)

/-- `kron_reduction(G, ind)` for a graph (`reduction.py:336-381`).  `Wnew - Wnew.diagonal()` subtracts the diagonal from every
row (broadcasting).  Simplifications: with a single kept vertex `Lnew` is a `numpy.matrix` of another shape, not modelled;
plotting parameters are not modelled. -/
noncomputable def kronGraph {R : Type} (s : GState n) (coords : Coords n R) (ind : Fin k → Fin n) :
    Py (Graph k ℝ × Coords k R) :=
  if s.lapType ≠ .combinatorial then .error .notImplementedError
  else if s.isDirected.1 then .error .notImplementedError
  else
    match kronMatrix s.L ind with
    | .error e => .error e
    | .ok Lnew =>
      if k = 1 then .error .unmodelled
      else
        let W0 : Matrix (Fin k) (Fin k) ℝ := Matrix.diagonal (fun a => Lnew a a) - Lnew
        let S : Fin k → ℝ := fun b => Lnew b b - ∑ a, W0 a b
        open Classical in
        let W1 := if spacing1000 ≤ Real.sqrt (∑ b, S b ^ 2) then W0 + Matrix.diagonal S else W0
        let W2 : Matrix (Fin k) (Fin k) ℝ := Matrix.of fun a b => W1 a b - W1 b b
        let mk (c : Coords k R) : Py (Graph k ℝ × Coords k R) :=
          match Graph.ofCsr (Sp.ofDense W2) s.lapType with
          | .error e => .error e
          | .ok g => .ok (g, c)
        match coords with
        | .missing => .error .attributeError
        | .scalar => mk .scalar
        | .rows c => mk (.rows fun a => c (ind a))

/-! ### Legacy analysis -/

/-- `while s.ndim < 3: s = np.expand_dims(s, 1)` (`reduction.py:29-30`), for an array that has at least one dimension. -/
def to3d (a : Arr) : Arr :=
  if a.ndim = 1 then (a.expandDims 1).expandDims 1 else if a.ndim = 2 then a.expandDims 1 else a

/-- `s.swapaxes(1, 2).reshape(-1, s.shape[1], order="F")` of a 3-D array (`reduction.py:31`): row `i` and column `j` of the
result are the entry `(i % N, j, i // N)`. -/
def swapReshape (a : Arr) : Arr :=
  let N := a.shape.getD 0 0
  let b := a.shape.getD 1 0
  let c := a.shape.getD 2 0
  ⟨[N * c, b], fun
    | [i, j] => if i < N * c ∧ j < b then a.val [i % N, j, i / N] else 0
    | _ => 0⟩

/-- `_analysis(g, s, **kwargs)` (`reduction.py:26-31`); a 0-d array (graph with one vertex) raises AxisError (a ValueError). -/
noncomputable def analysis (S : Solvers n) (f : Bank) (a : Arr) (method : FMethod) (order : ℕ) (s : GState n) :
    Py Arr × GState n :=
  match f.filter S a method order s with
  | (.error e, s) => (.error e, s)
  | (.ok r, s) => if r.ndim = 0 then (.error .valueError, s) else (.ok (swapReshape (to3d r)), s)

/-! ### Interpolation -/

/-- `lambda x: 1.0 / (reg_eps + x)` (`reduction.py:180`); a division by zero (inf) is not modelled. -/
noncomputable def greenKernel (eps : ℝ) : Kernel := fun _ x =>
  open Classical in if ∃ j, eps + x j = 0 then .error .unmodelled else .ok fun j => 1 / (eps + x j)

/-- `alpha = K_reg.dot(f)`, `f_interpolated = zeros`, `f_interpolated[keep_inds] = alpha` (`reduction.py:183-191`); when an
index is repeated the last value stays. -/
noncomputable def scatter (K : Matrix (Fin k) (Fin k) ℝ) (ind : Fin k → Fin n) (f : Fin k → ℝ) (v : Fin n) : ℝ :=
  match (List.finRange k).reverse.find? (fun a => ind a = v) with
  | some a => (K *ᵥ f) a
  | none => 0

/-- The array passed to the filter, for 1-D and 2-D signals; a signal of another length raises ValueError.  Simplification:
arrays of more dimensions are not modelled. -/
noncomputable def scatterArr (K : Matrix (Fin k) (Fin k) ℝ) (ind : Fin k → Fin n) (f : Arr) : Py Arr :=
  match f.shape with
  | [a] =>
    if a = k then .ok (Arr.of1 (scatter K ind fun i => f.val [i.1])) else .error .valueError
  | [a, m] =>
    if a = k then .ok (Arr.of2 fun v (j : Fin m) => scatter K ind (fun i => f.val [i.1, j.1]) v) else .error .valueError
  | _ => .error .unmodelled

/-- `interpolate(G, f_subsampled, keep_inds, order, reg_eps, method=...)` (`reduction.py:150-193`).  `G.mr` must exist; as it
is a dictionary, `getattr(G.mr, "K_reg", default)` and `getattr(G.mr, "green_kernel", default)` always return the default,
so what `graph_multiresolution` has stored there is not used. -/
noncomputable def interpolate (S : Solvers n) (hasMr : Bool) (f : Arr) (ind : Fin k → Fin n) (order : ℕ) (eps : ℝ)
    (method : FMethod) (s : GState n) : Py Arr × GState n :=
  if hasMr = false then (.error .attributeError, s)
  else
    match kronMatrix (s.L + eps • (1 : Matrix (Fin n) (Fin n) ℝ)) ind with
    | .error e => (.error e, s)
    | .ok K =>
      match scatterArr K ind f with
      | .error e => (.error e, s)
      | .ok a => analysis S (Bank.ofArg (.one (greenKernel eps))) a method order s

/-! ### Pyramid -/

/-- Broadcasting of two shapes (given in reverse order). -/
def bshape : List ℕ → List ℕ → Option (List ℕ)
  | [], t => some t
  | s, [] => some s
  | a :: s, b :: t =>
    if a = b then (bshape s t).map (a :: ·)
    else if a = 1 then (bshape s t).map (b :: ·)
    else if b = 1 then (bshape s t).map (a :: ·)
    else none

/-- The index read in an array of the given (reversed) shape at the (reversed) index of the broadcast result. -/
def bidx : List ℕ → List ℕ → List ℕ
  | [], _ => []
  | _ :: _, [] => []
  | a :: s, i :: idx => (if a = 1 then 0 else i) :: bidx s idx

/-- The index is inside an array of this shape. -/
def inBounds : List ℕ → List ℕ → Bool
  | [], [] => true
  | d :: s, i :: idx => decide (i < d) && inBounds s idx
  | _, _ => false

/-- A binary operation with broadcasting; shapes that do not match raise ValueError. -/
def broadcast (op : ℝ → ℝ → ℝ) (x y : Arr) : Py Arr :=
  match bshape x.shape.reverse y.shape.reverse with
  | none => .error .valueError
  | some sh => .ok ⟨sh.reverse, fun idx => if inBounds sh.reverse idx then
      op (x.val (bidx x.shape.reverse idx.reverse).reverse) (y.val (bidx y.shape.reverse idx.reverse).reverse) else 0⟩

/-- `a[idx]` for a list of row indices of a 2-D array (`reduction.py:443`). -/
def takeRows (a : Arr) {k : ℕ} (ind : Fin k → ℕ) : Py Arr :=
  match a.shape with
  | [r, c] =>
    if ∀ i, ind i < r then
      .ok ⟨[k, c], fun
        | [i, j] => if h : i < k then a.val [ind ⟨i, h⟩, j] else 0
        | _ => 0⟩
    else .error .indexError
  | _ => .error .unmodelled

/-- One graph of a multiresolution with the vertices that are kept for the next one (`Gs[i + 1].mr["idx"]`). -/
structure Level where
  n : ℕ
  S : Solvers n
  st : GState n
  k : ℕ
  idx : Fin k → Fin n

/-- `pyramid_analysis` (`reduction.py:412-449`), the loop over the levels: the low-pass filter, the coarse approximation, the
prediction and its error.  `levels` are the graphs except the last one, each with the kept vertices.  `order = none` means
the argument is not given: the filter then uses 30 and the interpolation 100; `reg_eps` cannot be given (`Filter.filter`
does not accept it).  Returns the coarse approximations and the prediction errors. -/
noncomputable def analysisLoop (method : FMethod) (order : Option ℕ) :
    List Level → List Kernel → Arr → Py (List Arr × List Arr) × List Level
  | [], _, f => (.ok ([f], []), [])
  | _ :: _, [], _ => (.error .indexError, [])
  | g :: gs, h :: hs, f =>
    match analysis g.S (Bank.ofArg (.one h)) f method (order.getD 30) g.st with
    | (.error e, s) => (.error e, { g with st := s } :: gs)
    | (.ok low, s) =>
      match takeRows low (fun a => (g.idx a).1) with
      | .error e => (.error e, { g with st := s } :: gs)
      | .ok ca =>
        match interpolate g.S true ca g.idx (order.getD 100) (1 / 200) method s with
        | (.error e, s) => (.error e, { g with st := s } :: gs)
        | (.ok pred, s) =>
          match broadcast (· - ·) f pred with
          | .error e => (.error e, { g with st := s } :: gs)
          | .ok err =>
            match analysisLoop method order gs hs ca with
            | (.error e, gs) => (.error e, { g with st := s } :: gs)
            | (.ok (cas, pes), gs) => (.ok (f :: cas, err :: pes), { g with st := s } :: gs)

/-- `pyramid_analysis(Gs, f, h_filters=..., order=..., method=...)` (`reduction.py:384-449`): the checks, then the loop.
A single filter is used for all levels. -/
noncomputable def pyramidAnalysis (method : FMethod) (order : Option ℕ) (n0 : ℕ) (gs : List Level) (hs : List Kernel)
    (f : Arr) : Py (List Arr × List Arr) × List Level :=
  if f.shape.head? ≠ some n0 then (.error .valueError, gs)
  else
    match hs with
    | [h] => analysisLoop method order gs (List.replicate gs.length h) f
    | hs => if hs.length ≠ gs.length then (.error .valueError, gs) else analysisLoop method order gs hs f

/-- The default of `h_filters`, `lambda x: 1.0 / (2 * x + 1)` (`reduction.py:420`). -/
noncomputable def defaultLow : Kernel := fun _ x =>
  open Classical in if ∃ j, 2 * x j + 1 = 0 then .error .unmodelled else .ok fun j => 1 / (2 * x j + 1)

/-- `pyramid_synthesis(Gs, cap, pe, order=30, method=...)` (`reduction.py:452-531`), `least_squares=False`: from the coarsest
level to the finest, `ca.append(interpolate(...) + pe[...])`.  Returns the list of the approximations, finest first.
(`len(pe) != levels` builds an exception but does not raise it; a missing error array raises IndexError.) -/
noncomputable def synthesisLoop (method : FMethod) (order : ℕ) (cap : Arr) : List Level → List Arr → Py (List Arr) × List Level
  | [], _ => (.ok [cap], [])
  | g :: gs, pes =>
    match synthesisLoop method order cap gs pes.tail with
    | (.error e, gs) => (.error e, g :: gs)
    | (.ok cas, gs) =>
      match cas with
      | [] => (.error .indexError, g :: gs)
      | ca :: cas =>
        match interpolate g.S true ca g.idx order (1 / 200) method g.st with
        | (.error e, s) => (.error e, { g with st := s } :: gs)
        | (.ok pred, s) =>
          match pes with
          | [] => (.error .indexError, { g with st := s } :: gs)
          | pe :: _ =>
            match broadcast (· + ·) pred pe with
            | .error e => (.error e, { g with st := s } :: gs)
            | .ok r => (.ok (r :: ca :: cas), { g with st := s } :: gs)

end Reduction

end PyGSP
