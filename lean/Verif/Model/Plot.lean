import Verif.Model.Graph
import Verif.Model.Array

/-!
# `Graph.plot` (`pygsp/plotting.py`)

What is drawn is described by the arguments given to the drawing library.  Numbers are exact.  A color is a name that the library knows, or an array; other ways to write a color,
the title, the style of the lines, the numbers of the vertices, the point of view in three dimensions and the axes are not modelled.  Windows are in Model/Windows.lean.
-/

namespace PyGSP.Plot

/-- The entries of `G.plotting` that are read (`graph.py:146-155`). -/
structure Style where
  vertexSize : ℝ
  edgeWidth : ℝ
  intercept : ℝ
  vertexColor : ℝ × ℝ × ℝ × ℝ
  edgeColor : ℝ × ℝ × ℝ × ℝ

/-- The style of a new graph (`graph.py:146-154`). -/
noncomputable def Style.default : Style := ⟨100, 2, 0.25, (0.12, 0.47, 0.71, 0.5), (0.5, 0.5, 0.5, 0.5)⟩

inductive Backend
  | matplotlib | pyqtgraph
  | other (name : String)

/-- The arguments `vertex_color` and `edge_color`. -/
inductive ColorArg
  | none
  | named (name : String)
  | array (a : Arr)

/-- The arguments `vertex_size` and `edge_width`. -/
inductive SizeArg
  | none
  | scalar (x : ℝ)
  | array (a : Arr)

/-- Sizes or widths given to the library: one for all, or one for each. -/
inductive Sizes (k : ℕ)
  | one (x : ℝ)
  | each (x : Fin k → ℝ)

/-- Colors given to the library: one for all, named or with its components; the array of the user, taken as colors; values to be mapped to colors; or the components for each. -/
inductive Colors (k : ℕ)
  | named (name : String)
  | one (c : ℝ × ℝ × ℝ × ℝ)
  | asColors (a : Arr)
  | values (x : Fin k → ℝ)
  | each (c : Fin k → ℝ × ℝ × ℝ × ℝ)

/-- `matplotlib.colors.is_color_like` of an array of numbers: three or four numbers between zero and one, possibly in a row of a 2-D array. -/
def isColorLike (a : Arr) : Prop :=
  ((a.shape = [3] ∨ a.shape = [4]) ∧ ∀ i, i < a.last → 0 ≤ a.val [i] ∧ a.val [i] ≤ 1) ∨
  ((a.shape = [1, 3] ∨ a.shape = [1, 4]) ∧ ∀ i, i < a.last → 0 ≤ a.val [0, i] ∧ a.val [0, i] ≤ 1)

/-- `a[i]`. -/
def item (a : Arr) (i : ℕ) : Arr := ⟨a.shape.tail, fun idx => a.val (i :: idx)⟩

/-- `is_color` (`plotting.py:466-477`) of an array. -/
def isColor (b : Backend) (a : Arr) : Prop :=
  match b with
  | .matplotlib => isColorLike a ∨ (a.shape ≠ [] ∧ ∀ i, i < a.shape.headD 0 → isColorLike (item a i))
  | _ => False

/-- `check_shape` (`plotting.py:443-451`) with `many=False`, of an array that has been squeezed: its entries. -/
def checkShape (a : Arr) (k : ℕ) : Py (Fin k → ℝ) :=
  if a.shape = [k] then .ok fun i => a.val [i.val] else .error .valueError

/-- `np.ptp(x)`, `x.min()`. -/
noncomputable def range {k : ℕ} (x : Fin k → ℝ) : Py (ℝ × ℝ) := do
  let hi ← arrMax x
  let lo ← arrMin x
  .ok (lo, hi)

/-- `normalize` (`plotting.py:453-464`). -/
noncomputable def normalize (st : Style) {k : ℕ} (x : Fin k → ℝ) : Py (Fin k → ℝ) := do
  let (lo, hi) ← range x
  if hi - lo = 0 then .ok fun _ => 0.5
  else .ok fun i => (1 - st.intercept) * (x i - lo) / (hi - lo) + st.intercept

/-- `check_2d_3d` and the checks of the coordinates (`plotting.py:430-438`): the dimension of the space. -/
def checkCoords (n : ℕ) : Option Arr → Py ℕ
  | none => .error .attributeError
  | some a =>
    if a.ndim ≠ 1 ∧ ¬ (a.ndim = 2 ∧ (a.shape.getD 1 0 = 2 ∨ a.shape.getD 1 0 = 3)) then .error .attributeError
    else if a.shape.headD 0 ≠ n then .error .attributeError
    else .ok (if a.ndim = 1 then 1 else a.shape.getD 1 0)

open Classical in
/-- `vertex_color`, `limits` and `colorbar` (`plotting.py:479-491`).  A signal with several columns, accepted on a line, is not modelled. -/
noncomputable def vertexColors (b : Backend) (st : Style) (n dim : ℕ) (c : ColorArg) (limits : Option (ℝ × ℝ)) (colorbar : Bool) :
    Py (Option (Colors n) × Option (ℝ × ℝ) × Bool) :=
  match c with
  | .none => .ok (match b with | .matplotlib => some (.one st.vertexColor) | _ => none, some (0, 0), false)
  | .named s => match b with
    | .matplotlib => .ok (some (.named s), some (0, 0), false)
    | _ => .error .valueError
  | .array a =>
    if isColor b a then .ok (some (.asColors a), some (0, 0), false)
    else if dim = 1 ∧ a.squeeze.shape ≠ [n] ∧ a.squeeze.shape.headD 0 = n ∧ a.squeeze.shape ≠ [] then .error .unmodelled
    else do
      let x ← checkShape a.squeeze n
      .ok (some (.values x), limits, colorbar)

/-- `vertex_size` (`plotting.py:493-498`). -/
noncomputable def vertexSizes (st : Style) (n : ℕ) : SizeArg → Py (Sizes n)
  | .none => .ok (.one st.vertexSize)
  | .scalar x => .ok (.one x)
  | .array a => do
    let x ← checkShape a.squeeze n
    let y ← normalize st x
    .ok (.each fun i => st.vertexSize * 4 * y i ^ 2)

open Classical in
/-- `edge_color` (`plotting.py:503-513`). -/
noncomputable def edgeColors (b : Backend) (st : Style) (m : ℕ) : ColorArg → Py (Colors m)
  | .none => .ok (.one st.edgeColor)
  | .named s => match b with
    | .matplotlib => .ok (.named s)
    | _ => .error .valueError
  | .array a =>
    if isColor b a then .ok (.asColors a)
    else do
      let x ← checkShape a.squeeze m
      let y ← normalize st x
      .ok (.each fun i => (st.edgeColor.1, st.edgeColor.2.1, st.edgeColor.2.2.1, 0.9 * y i))

/-- `edge_width` (`plotting.py:515-520`). -/
noncomputable def edgeWidths (st : Style) (m : ℕ) : SizeArg → Py (Sizes m)
  | .none => .ok (.one st.edgeWidth)
  | .scalar x => .ok (.one x)
  | .array a => do
    let x ← checkShape a.squeeze m
    let y ← normalize st x
    .ok (.each fun i => st.edgeWidth * 2 * y i)

/-- `limits` (`plotting.py:522-523`). -/
noncomputable def plotLimits {n : ℕ} (c : Option (Colors n)) : Option (ℝ × ℝ) → Py (ℝ × ℝ)
  | some l => .ok l
  | none =>
    match c with
    | some (.values x) => do
      let (lo, hi) ← range x
      .ok (1.05 * lo, 1.05 * hi)
    | _ => .error .unmodelled

/-- The arguments of `ax.scatter` and `LineCollection` (`plotting.py:575-631`). -/
structure Scatter (n m : ℕ) where
  points : Fin n → List ℝ
  colors : Colors n
  sizes : Sizes n
  vmin : ℝ
  vmax : ℝ
  colorbar : Bool
  segments : List (List ℝ × List ℝ)
  widths : Sizes m
  edgeColors : Colors m
  highlights : List (List ℝ × ℝ)

/-- What is drawn by the library: a picture in two or three dimensions, a curve, or a picture of the library `pyqtgraph`. -/
inductive Picture (n m : ℕ)
  | scatter (s : Scatter n m)
  | curve (abscissae : Fin n → ℝ) (values : Fin n → ℝ) (ymin ymax : ℝ) (marks : List ℝ)
  | qtg (points : Fin n → List ℝ) (signal : Option (Fin n → ℝ)) (segments : List (List ℝ × List ℝ))

/-- `G.coords[v]` as a list of numbers. -/
def point (a : Arr) (dim : ℕ) (v : ℕ) : List ℝ := (List.range dim).map fun c => a.val [v, c]

/-- The index of the user as an index of the array (`G.coords[highlight]`): a negative index counts from the end, IndexError out of bounds. -/
def pyIndex (n : ℕ) (i : ℤ) : Py (Fin n) :=
  let j : ℤ := if i < 0 then i + n else i
  if h : 0 ≤ j ∧ j < n then .ok ⟨j.toNat, by omega⟩ else .error .indexError

/-- The indices `highlight` (`plotting.py:597-601`). -/
def pyIndices (n : ℕ) : List ℤ → Py (List (Fin n))
  | [] => .ok []
  | i :: is => do
    let v ← pyIndex n i
    let vs ← pyIndices n is
    .ok (v :: vs)

/-- The size of vertex `v` (`plotting.py:621-624`). -/
def Sizes.at {k : ℕ} : Sizes k → Fin k → ℝ
  | .one x, _ => x
  | .each x, v => x v

/-- The segments (`plotting.py:575-581`): from the source to the target of each edge, in the order of `get_edge_list`. -/
def segmentsOf {n : ℕ} (a : Arr) (dim : ℕ) (l : List (Fin n × Fin n × ℝ)) : List (List ℝ × List ℝ) := l.map fun e => (point a dim e.1, point a dim e.2.1)

/-- `_plt_plot_graph` (`plotting.py:559-653`), when the coordinates are on a line: `ax.plot(G.coords, vertex_color)` raises ValueError when no signal is given (there is one
color for `n` abscissae); a color is not modelled. -/
noncomputable def plotCurve {n m : ℕ} (a : Arr) (colors : Colors n) (limits : ℝ × ℝ) (hl : List (Fin n)) : Py (Picture n m) :=
  match colors with
  | .values x => .ok (.curve (fun v => a.val [v.val]) x limits.1 limits.2 (hl.map fun v => a.val [v.val]))
  | .one _ => if n = 1 then .error .unmodelled else .error .valueError
  | _ => .error .unmodelled

/-- `_plt_plot_graph` (`plotting.py:559-653`) in two or three dimensions.  `edges` is the list of the edges when they are drawn. -/
def plotScatter {n m : ℕ} (a : Arr) (dim : ℕ) (colors : Colors n) (sizes : Sizes n) (limits : ℝ × ℝ) (colorbar : Bool)
    (edges : Option (List (Fin n × Fin n × ℝ))) (widths : Sizes m) (ecolors : Colors m) (hl : List (Fin n)) : Picture n m :=
  .scatter {
    points := fun v => point a dim v
    colors := colors
    sizes := sizes
    vmin := limits.1
    vmax := limits.2
    colorbar := colorbar
    segments := (edges.map (segmentsOf a dim)).getD []
    widths := widths
    edgeColors := ecolors
    highlights := hl.map fun v : Fin n => (point a dim v, 2 * sizes.at v) }

/-- `_qtg_plot_signal`: what is mapped to a color (`plotting.py:698`). -/
noncomputable def qtgValue (limits : ℝ × ℝ) (x : ℝ) : ℝ := 1 + 63 * (x - limits.1) / limits.2 - limits.1

/-- `_qtg_plot_graph`, `_qtg_plot_signal` (`plotting.py:156-196`, `plotting.py:656-719`) in two or three dimensions, with one size for all the vertices; coordinates on a line have
no second dimension (IndexError); `limits[1] = 0` gives infinite values, which is not modelled. -/
noncomputable def plotQtg {n m : ℕ} (a : Arr) (dim : ℕ) (colors : Option (Colors n)) (limits : ℝ × ℝ) (edges : List (Fin n × Fin n × ℝ)) : Py (Picture n m) :=
  if dim = 1 then .error .indexError
  else
    match colors with
    | none => .ok (.qtg (fun v => point a dim v) none (segmentsOf a dim edges))
    | some (.values x) => if limits.2 = 0 then .error .unmodelled else .ok (.qtg (fun v => point a dim v) (some fun v => qtgValue limits (x v)) (segmentsOf a dim edges))
    | some _ => .error .unmodelled

/-- The drawing itself, once the arguments have been checked (`plotting.py:528-556`). -/
noncomputable def draw {n : ℕ} (G : Graph n ℝ) (b : Backend) (a : Arr) (dim : ℕ) (colors : Option (Colors n)) (sizes : Sizes n) (limits : ℝ × ℝ) (colorbar edges : Bool)
    (ecolors : Colors G.nEdges) (widths : Sizes G.nEdges) (highlight : List ℤ) : Py (Picture n G.nEdges) :=
  match b, colors with
  | .matplotlib, some c =>
    if dim = 1 then do
      let hl ← pyIndices n highlight
      plotCurve a c limits hl
    else if edges then do
      let l ← G.getEdgeList
      let hl ← pyIndices n highlight
      .ok (plotScatter a dim c sizes limits colorbar (some l) widths ecolors hl)
    else do
      let hl ← pyIndices n highlight
      .ok (plotScatter a dim c sizes limits colorbar none widths ecolors hl)
  | .pyqtgraph, c =>
    if edges then do
      let l ← G.getEdgeList
      plotQtg a dim c limits l
    else plotQtg a dim c limits []
  | _, _ => .error .valueError

/-- `Graph.plot(vertex_color, vertex_size, highlight, edges, edge_color, edge_width, colorbar, limits, backend)` (`graph.py:1031-1062`, `plotting.py:430-556`). -/
noncomputable def plot {n : ℕ} (G : Graph n ℝ) (coords : Option Arr) (st : Style) (vertexColor : ColorArg) (vertexSize : SizeArg) (highlight : List ℤ) (edges : Option Bool)
    (edgeColor : ColorArg) (edgeWidth : SizeArg) (colorbar : Bool) (limits : Option (ℝ × ℝ)) (b : Backend) : Py (Picture n G.nEdges) := do
  let dim ← checkCoords n coords
  let (colors, limits, colorbar) ← vertexColors b st n dim vertexColor limits colorbar
  let sizes ← vertexSizes st n vertexSize
  let edges := edges.getD (decide (G.nEdges < 10000))
  let ecolors ← edgeColors b st G.nEdges edgeColor
  let widths ← edgeWidths st G.nEdges edgeWidth
  let limits ← plotLimits colors limits
  draw G b (coords.getD ⟨[], fun _ => 0⟩) dim colors sizes limits colorbar edges ecolors widths highlight

end PyGSP.Plot
