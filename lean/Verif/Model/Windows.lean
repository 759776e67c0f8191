import Verif.Model.Plot
import Verif.Model.PlotFilter

/-!
# Figures and windows (`pygsp/plotting.py:32-33, 85-153, 192-196, 715-719`)

The figures managed by `pyplot`, the two global lists of the module, and the calls which change them.  Both drawing libraries can be imported.  A figure or a window is a
number; a new one has a new number.  `fig.show(warn=False)`, `show()`, titles and the contents of the windows change none of this.
-/

namespace PyGSP.Plot

/-- The state of the windows. -/
structure Windows where
  /-- the figures managed by `pyplot`, the current one last -/
  managed : List ℕ
  /-- `_plt_figures` (`plotting.py:33`) -/
  figs : List ℕ
  /-- the visible windows of `pyqtgraph` -/
  shown : List ℕ
  /-- `_qtg_widgets` (`plotting.py:32`) -/
  widgets : List ℕ
  next : ℕ

/-- Axes: the figure they belong to (`ax.figure`) and whether they have three dimensions. -/
structure Axes where
  figure : ℕ
  spatial : Bool
  deriving DecidableEq

namespace Windows

/-- `plt.figure()`: a new figure, managed and current. -/
def figure (w : Windows) : Windows := { w with managed := w.managed ++ [w.next], next := w.next + 1 }

/-- `plt.gcf()`, called by `plt.colorbar` (`plotting.py:643`): the current figure, a new one if there is none. -/
def gcf (w : Windows) : Windows := if w.managed = [] then w.figure else w

/-- `plt.close(fig)`: nothing happens if the figure is not managed (any more). -/
def closeFig (w : Windows) (k : ℕ) : Windows := { w with managed := w.managed.filter fun i => decide (i ≠ k) }

/-- `plotting.close()` (`plotting.py:150-153`), that is `plt.close()`: the current figure. -/
def closeCurrent (w : Windows) : Windows := { w with managed := w.managed.dropLast }

/-- `plt.figure(k)` for an existing figure: it becomes the current one. -/
def activate (w : Windows) (k : ℕ) : Windows :=
  if k ∈ w.managed then { w with managed := w.managed.filter (fun i => decide (i ≠ k)) ++ [k] } else w

/-- A window of `pyqtgraph` is closed. -/
def hide (w : Windows) (k : ℕ) : Windows := { w with shown := w.shown.filter fun i => decide (i ≠ k) }

/-- `close_all()` (`plotting.py:125-137`): two loops over the global lists, which are then emptied. -/
def closeAll (w : Windows) : Windows :=
  let w := { w.widgets.foldl hide w with widgets := [] }
  { w.figs.foldl closeFig w with figs := [] }

/-- The end of `_qtg_plot_graph` and `_qtg_plot_signal` (`plotting.py:192-196, 715-719`): the window is shown and remembered. -/
def showWidget (w : Windows) : Windows :=
  { w with shown := w.shown ++ [w.next], widgets := w.widgets ++ [w.next], next := w.next + 1 }

/-- The first part of `_plt_handle_figure` (`plotting.py:92-106`): without axes a figure is made and remembered, with axes in three dimensions if `spatial`. -/
def handleAxes (w : Windows) (spatial : Bool) : Option Axes → Axes × Windows
  | some a => (a, w)
  | none => (⟨w.next, spatial⟩, { w.figure with figs := w.figs ++ [w.next] })

end Windows

/-- `obj.coords.ndim == 2 and obj.coords.shape[1] == 3` (`plotting.py:99-103`). -/
def isSpatial : Option Arr → Bool
  | some a => decide (a.shape.length = 2 ∧ a.shape[1]? = some 3)
  | none => false

/-- The arguments of the drawing functions, once `_plot_graph` has checked them. -/
structure Args (n m : ℕ) where
  dim : ℕ
  colors : Option (Colors n)
  sizes : Sizes n
  limits : ℝ × ℝ
  colorbar : Bool
  edges : Bool
  ecolors : Colors m
  widths : Sizes m

/-- `_plot_graph` up to the drawing (`plotting.py:430-527`). -/
noncomputable def prepare {n : ℕ} (G : Graph n ℝ) (coords : Option Arr) (st : Style) (vertexColor : ColorArg) (vertexSize : SizeArg) (edges : Option Bool)
    (edgeColor : ColorArg) (edgeWidth : SizeArg) (colorbar : Bool) (limits : Option (ℝ × ℝ)) (b : Backend) : Py (Args n G.nEdges) := do
  let dim ← checkCoords n coords
  let (colors, limits, colorbar) ← vertexColors b st n dim vertexColor limits colorbar
  let sizes ← vertexSizes st n vertexSize
  let edges := edges.getD (decide (G.nEdges < 10000))
  let ecolors ← edgeColors b st G.nEdges edgeColor
  let widths ← edgeWidths st G.nEdges edgeWidth
  let limits ← plotLimits colors limits
  .ok ⟨dim, colors, sizes, limits, colorbar, edges, ecolors, widths⟩

/-- `plt.colorbar(sc, ax=ax)` (`plotting.py:642-643`). -/
def colorbarWindows {n m : ℕ} (w : Windows) : Picture n m → Windows
  | .scatter s => if s.colorbar then w.gcf else w
  | _ => w

/-- `Graph.plot` with its effects on the windows (`plotting.py:528-556` and the decorator, `plotting.py:85-122`): the value is the axes (and their figure), nothing with `pyqtgraph`. -/
noncomputable def graphPlot {n : ℕ} (G : Graph n ℝ) (coords : Option Arr) (st : Style) (vertexColor : ColorArg) (vertexSize : SizeArg) (highlight : List ℤ) (edges : Option Bool)
    (edgeColor : ColorArg) (edgeWidth : SizeArg) (colorbar : Bool) (limits : Option (ℝ × ℝ)) (b : Backend) (ax : Option Axes) (w : Windows) :
    Py (Option Axes × Picture n G.nEdges) × Windows :=
  match prepare G coords st vertexColor vertexSize edges edgeColor edgeWidth colorbar limits b with
  | .error e => (.error e, w)
  | .ok r =>
    match b with
    | .matplotlib =>
      let (a, w) := w.handleAxes (isSpatial coords) ax
      match draw G .matplotlib (coords.getD ⟨[], fun _ => 0⟩) r.dim r.colors r.sizes r.limits r.colorbar r.edges r.ecolors r.widths highlight with
      | .error e => (.error e, w)
      | .ok p => (.ok (some a, p), colorbarWindows w p)
    | b =>
      match draw G b (coords.getD ⟨[], fun _ => 0⟩) r.dim r.colors r.sizes r.limits r.colorbar r.edges r.ecolors r.widths highlight with
      | .error e => (.error e, w)
      | .ok p => (.ok (none, p), w.showWidget)

/-- `Filter.plot` with its effects on the windows (`plotting.py:199-323` and the decorator): a filter has no coordinates. -/
noncomputable def filterPlot {p : ℕ} {size : Fin p → ℕ} (S : Sols size) (f : LFilter size) (n : ℕ) (eigenvalues sum labels : Option Bool) (ax : Option Axes)
    (w : Windows) (h : Heap size) : Py (Axes × FilterPicture f.Nf) × Windows × Heap size :=
  let (a, w) := w.handleAxes false ax
  match f.plot S n eigenvalues sum labels h with
  | (.error e, h) => (.error e, w, h)
  | (.ok p, h) => (.ok (a, p), w, h)

/-- What a user does: plot a graph, plot a filter, `close_all()`, `close()`, and with `pyplot` or the windows themselves: a new figure, close a figure, make a figure
the current one, close a window. -/
inductive Act
  | graph {n : ℕ} (G : Graph n ℝ) (coords : Option Arr) (st : Style) (vertexColor : ColorArg) (vertexSize : SizeArg) (highlight : List ℤ) (edges : Option Bool)
    (edgeColor : ColorArg) (edgeWidth : SizeArg) (colorbar : Bool) (limits : Option (ℝ × ℝ)) (b : Backend) (ax : Option Axes)
  | filter {p : ℕ} {size : Fin p → ℕ} (S : Sols size) (f : LFilter size) (n : ℕ) (eigenvalues sum labels : Option Bool) (h : Heap size) (ax : Option Axes)
  | closeAll
  | closeCurrent
  | newFigure
  | closeFigure (k : ℕ)
  | activate (k : ℕ)
  | hide (k : ℕ)

/-- The windows after one action. -/
noncomputable def Act.run (w : Windows) : Act → Windows
  | .graph G coords st vc vs hl edges ec ew cb lim b ax => (graphPlot G coords st vc vs hl edges ec ew cb lim b ax w).2
  | .filter S f n eig sum labels h ax => (filterPlot S f n eig sum labels ax w h).2.1
  | .closeAll => w.closeAll
  | .closeCurrent => w.closeCurrent
  | .newFigure => w.figure
  | .closeFigure k => w.closeFig k
  | .activate k => w.activate k
  | .hide k => w.hide k

end PyGSP.Plot
