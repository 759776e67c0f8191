import Verif.Model.Subgraph
import Verif.Model.Plot

/-!
# The drawing preferences `G.plotting`

Dictionaries are objects: several variables may hold the same one.  The values of the entries are numbers, lists of numbers or texts and are not modified in
place; the user does not rebind the attribute `plotting` itself.
-/

namespace PyGSP.Prefs

/-- A value in a dictionary of preferences. -/
inductive Val
  | num (x : ℝ)
  | nums (l : List ℝ)
  | text (s : String)

/-- The contents of a dictionary, in the order of insertion. -/
abbrev Dict := List (String × Val)

/-- `d.get(k)`. -/
def get (d : Dict) (k : String) : Option Val := List.lookup k d

/-- `d.update(e)`. -/
def update (d e : Dict) : Dict := e.foldl (fun d p => dictSet d p.1 p.2) d

/-- `del d[k]`. -/
def erase (d : Dict) (k : String) : Dict := d.filter fun p => p.1 ≠ k

/-- The preferences of every graph (`graph.py:146-154`). -/
noncomputable def defaults : Dict :=
  [("vertex_size", .num 100), ("vertex_color", .nums [0.12, 0.47, 0.71, 0.5]), ("edge_color", .nums [0.5, 0.5, 0.5, 0.5]), ("edge_width", .num 2),
    ("edge_style", .text "-"), ("highlight_color", .text "C1"), ("normalize_intercept", .num 0.25)]

/-- The classes of graphs, with the parameters that appear in their preferences.  `xmax`, `ymax` are `data["x"].max()` and `data["y"].max()`. -/
inductive Cls
  | graph | stochasticBlockModel | erdosRenyi | barabasiAlbert | community | randomRegular | comet | nnGraph | imgPatches
  | path (N : ℕ) | ring | fullConnected | randomRing | grid2d (N1 N2 : ℕ) | torus | star | lowStretchTree (k : ℕ) | swissRoll | davidSensorNet
  | minnesota | airfoil (xmax ymax : ℝ) | logo | sensor | sphere | cube | twoMoons | bunny

/-- The dictionary that the constructor of a class writes itself and gives to the parent class as `plotting=plotting, **kwargs`; `none` when the class gives only
its `**kwargs` (`stochasticblockmodel.py:165`, `erdosrenyi.py:51`, `barabasialbert.py:65`, `community.py:279`, `randomregular.py:103`, `comet.py:73`,
`nngraph.py:299`, `imgpatches.py:100`). -/
noncomputable def own : Cls → Option Dict
  -- `path.py:71-73`
  | .path N => some [("limits", .nums [-1, N, -1, 1])]
  -- `ring.py:86-88`
  | .ring => some [("limits", .nums [-1, 1, -1, 1])]
  -- `fullconnected.py:29-31`
  | .fullConnected => some [("limits", .nums [-1, 1, -1, 1])]
  -- `randomring.py:72-75`
  | .randomRing => some [("limits", .nums [-1, 1, -1, 1])]
  -- `grid2d.py:85-89`
  | .grid2d N1 N2 => some [("limits", .nums [-1 / N2, 1 + 1 / N2, 1 / N1, 1 + 1 / N1])]
  -- `torus.py:102-107`
  | .torus => some [("vertex_size", .num 60), ("limits", .nums [-2.5, 2.5, -2.5, 2.5, -2.5, 2.5])]
  -- `star.py:32-34`
  | .star => some [("limits", .nums [-1.1, 1.1, -1.1, 1.1])]
  -- `lowstretchtree.py:81-87`
  | .lowStretchTree k => some [("edges_width", .num 1.25), ("vertex_size", .num 75), ("limits", .nums [0, 2 ^ k + 1, 0, 2 ^ k + 1])]
  -- `swissroll.py:97-105`
  | .swissRoll => some [("vertex_size", .num 60), ("limits", .nums [-1, 1, -1, 1, -1, 1]), ("elevation", .num 15), ("azimuth", .num (-90)), ("distance", .num 7)]
  -- `davidsensornet.py:56-58`
  | .davidSensorNet => some [("limits", .nums [0, 1, 0, 1])]
  -- `minnesota.py:40`, `minnesota.py:52`
  | .minnesota => some [("limits", .nums [-98, -89, 43, 50]), ("vertex_size", .num 40)]
  -- `airfoil.py:31-38`
  | .airfoil xmax ymax => some [("vertex_size", .num 30), ("limits", .nums [-1e-4, 1.01 * xmax, -1e-4, 1.01 * ymax])]
  -- `logo.py:31-33`
  | .logo => some [("limits", .nums [0, 640, -400, 0])]
  -- `sensor.py:54`, `sensor.py:73-75`
  | .sensor => some [("limits", .nums [0, 1, 0, 1])]
  -- `sphere.py:54-60`
  | .sphere => some [("vertex_size", .num 80)]
  -- `cube.py:76-85`
  | .cube => some [("vertex_size", .num 80), ("elevation", .num 15), ("azimuth", .num 0), ("distance", .num 9)]
  -- `twomoons.py:102-114`
  | .twoMoons => some [("vertex_size", .num 30)]
  -- `bunny.py:28-43`
  | .bunny => some [("vertex_size", .num 10), ("elevation", .num (-90)), ("azimuth", .num 90), ("distance", .num 8)]
  | .graph | .stochasticBlockModel | .erdosRenyi | .barabasiAlbert | .community | .randomRegular | .comet | .nnGraph | .imgPatches => none

/-- What exists at some moment: the dictionaries, those held by the graphs as `G.plotting`, in the order of their creation, and those made by the user. -/
structure World where
  heap : List Dict
  graphs : List ℕ
  mine : List ℕ

/-- The interpreter has just imported the library: the dictionaries of the default arguments `plotting={}` of `Graph.__init__` (`graph.py:98`) and of
`NNGraph.__init__` (`nngraph.py:102`), made once and for all. -/
def start : World := ⟨[[], []], [], []⟩

/-- How the user names a dictionary: `G.plotting` of a graph, or one that they made. -/
inductive Ref
  | graph (i : ℕ)
  | mine (i : ℕ)

/-- The dictionary that a reference points to. -/
def World.addr (w : World) : Ref → Option ℕ
  | .graph i => w.graphs[i]?
  | .mine i => w.mine[i]?

/-- Its contents. -/
def World.deref (w : World) (r : Ref) : Option Dict := (w.addr r).bind fun a => w.heap[a]?

/-- A new object. -/
def World.alloc (w : World) (d : Dict) : World := { w with heap := w.heap ++ [d] }

/-- `Graph.__init__(..., plotting=p)` (`graph.py:146-155`): `self.plotting` is a new dictionary, with the entries of `p` over the default ones. -/
noncomputable def graphInit (p : Dict) (w : World) : World :=
  { w.alloc (update defaults p) with graphs := w.graphs ++ [w.heap.length] }

/-- The dictionary of the default argument `plotting` (`graph.py:98`, `nngraph.py:102`). -/
def defaultArg : Cls → ℕ
  | .nnGraph | .imgPatches => 1
  | _ => 0

/-- `Class(..., plotting=r)` or `Class(...)`.  In a class with its own preferences, `plotting` is given twice to the parent: TypeError (in `Star` too: `star.py:32-34`). -/
noncomputable def make (c : Cls) (arg : Option Ref) (w : World) : Py Unit × World :=
  match own c, arg with
  | some d, none => (.ok (), graphInit d w)
  | some _, some _ => (.error .typeError, w)
  | none, none => (.ok (), graphInit (w.heap.getD (defaultArg c) []) w)
  | none, some r =>
    match w.deref r with
    | none => (.error .nameError, w)
    | some p => (.ok (), graphInit p w)

/-- A graph made from graph `i` with `plotting=G.plotting`: `subgraph` (`graph.py:252`) and hence `extract_components`, `kron_reduction` (`reduction.py:375-377`), `LineGraph`
(`linegraph.py:53`). -/
noncomputable def derive (i : ℕ) (w : World) : Py Unit × World :=
  match w.deref (.graph i) with
  | none => (.error .nameError, w)
  | some p => (.ok (), graphInit p w)

/-- `Grid2dImgPatches(img, plotting=r)` (`grid2dimgpatches.py:38-43`), for an image of `N1` times `N2` pixels: `Gg`, `Gp`, then the graph itself. -/
noncomputable def gridPatches (N1 N2 : ℕ) (arg : Option Ref) (w : World) : Py Unit × World :=
  match make .imgPatches arg (make (.grid2d N1 N2) none w).2 with
  | (.error e, _) => (.error e, w)
  | (.ok (), w') => derive w.graphs.length w'

/-- What a program does with preferences. -/
inductive Op
  | dict (d : Dict)
  | make (c : Cls) (arg : Option Ref)
  | derive (i : ℕ)
  | gridPatches (N1 N2 : ℕ) (arg : Option Ref)
  | set (r : Ref) (k : String) (v : Val)
  | del (r : Ref) (k : String)

/-- Change the dictionary that `r` points to. -/
def World.modify (w : World) (r : Ref) (f : Dict → Dict) : World :=
  match w.addr r with
  | none => w
  | some a => { w with heap := w.heap.modify a f }

/-- One operation; one that raises leaves everything as it is. -/
noncomputable def step (w : World) : Op → World
  | .dict d => { w.alloc (update [] d) with mine := w.mine ++ [w.heap.length] }
  | .make c arg => (Prefs.make c arg w).2
  | .derive i => (Prefs.derive i w).2
  | .gridPatches N1 N2 arg => (Prefs.gridPatches N1 N2 arg w).2
  | .set r k v => w.modify r fun d => dictSet d k v
  | .del r k => w.modify r fun d => erase d k

/-- A history. -/
noncomputable def run (h : List Op) : World := h.foldl step start

/-! ### What the drawing reads -/

/-- `G.plotting[k]`, a number. -/
def getNum (d : Dict) (k : String) : Py ℝ :=
  match get d k with
  | none => .error .keyError
  | some (.num x) => .ok x
  | some _ => .error .unmodelled

/-- `G.plotting[k]`, a color with its four components. -/
def getColor (d : Dict) (k : String) : Py (ℝ × ℝ × ℝ × ℝ) :=
  match get d k with
  | none => .error .keyError
  | some (.nums [r, g, b, a]) => .ok (r, g, b, a)
  | some _ => .error .unmodelled

/-- The preferences read by `plot` (`plotting.py:463`, `plotting.py:483`, `plotting.py:494`, `plotting.py:504`, `plotting.py:516`).  Each is in fact only read when needed. -/
def style (d : Dict) : Py Plot.Style := do
  let vs ← getNum d "vertex_size"
  let ew ← getNum d "edge_width"
  let ni ← getNum d "normalize_intercept"
  let vc ← getColor d "vertex_color"
  let ec ← getColor d "edge_color"
  return ⟨vs, ew, ni, vc, ec⟩

/-- The point of view given to the axes in three dimensions (`plotting.py:635-640`): elevation and azimuth, and the distance. -/
structure View where
  angles : Option (Val × Val)
  dist : Option Val

/-- `plotting.py:635-640`: the first missing entry raises KeyError, which stops the rest. -/
def view (d : Dict) : View :=
  match get d "elevation" with
  | none => ⟨none, none⟩
  | some e =>
    match get d "azimuth" with
    | none => ⟨none, none⟩
    | some a =>
      match get d "distance" with
      | none => ⟨some (e, a), none⟩
      | some x => ⟨some (e, a), some x⟩

end PyGSP.Prefs
