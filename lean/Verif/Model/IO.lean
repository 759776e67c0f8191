import Verif.Model.Signals
import Verif.Model.Generators

/-!
# Exchange with NetworkX and graph-tool, files (`pygsp/graphs/_io.py`)

The two libraries are modelled by the data they hold.  A NetworkX graph has its nodes in the order of `graph.nodes()` (a node is
its position), each with its attribute dictionary, and its edges with their weights; a graph-tool graph has a number of vertices,
edges with weights, and vertex properties.  The value of a signal is a real number or NaN (`none`).  The integer type of a value,
the attribute `graph.name` and the logging are not modelled.
-/

namespace PyGSP.IO

open Matrix

/-- A `networkx.Graph` or `networkx.DiGraph` (or multigraph: then an edge may be repeated). -/
structure NxGraph where
  directed : Bool
  /-- the attributes of every node -/
  attrs : List (List (Name × Option ℝ))
  /-- `graph.edges(data='weight', default=1)`, as positions of the nodes -/
  edges : List (ℕ × ℕ × ℝ)

/-- A `graph_tool.Graph` with the edge property `weight`. -/
structure GtGraph where
  directed : Bool
  /-- `graph.num_vertices()` -/
  n : ℕ
  edges : List (ℕ × ℕ × ℝ)
  /-- the vertex properties, as arrays of length `n` -/
  props : List (Name × (Fin n → Option ℝ))

/-- A graph with its dictionary of signals. -/
structure Imported where
  n : ℕ
  graph : Graph n ℝ
  signals : List (Name × Sig (Fin n → Option ℝ))

/-- The one-dimensional signals of a dictionary (after `_break_signals` there are no others; `convert(signal[vertex])` would fail
on a two-dimensional one). -/
def oneDim {V : Type} : List (Name × Sig V) → Py (List (Name × V))
  | [] => .ok []
  | (_, .two _) :: _ => .error .unmodelled
  | (k, .one x) :: d =>
    match oneDim d with
    | .error e => .error e
    | .ok l => .ok ((k, x) :: l)

/-- Edges as pairs of numbers. -/
def edgeNumbers {n : ℕ} (l : List (Fin n × Fin n × ℝ)) : List (ℕ × ℕ × ℝ) := l.map fun e => (e.1.1, e.2.1.1, e.2.2)

/-- `to_networkx` (`_io.py:114-142`): the exported graph, and the signals of the graph afterwards. -/
noncomputable def toNetworkx {n : ℕ} (g : Graph n ℝ) (signals : List (Name × Sig (Fin n → Option ℝ))) :
    Py (NxGraph × List (Name × Sig (Fin n → Option ℝ))) :=
  let broken := breakSignals signals
  match oneDim broken with
  | .error e => .error e
  | .ok l =>
    match g.getEdgeList with
    | .error e => .error e
    | .ok edges =>
      .ok ({ directed := isDirected g.W
             attrs := (List.finRange n).map fun v => l.map fun e => (e.1, e.2 v)
             edges := edgeNumbers edges }, broken)

/-- `nx.to_scipy_sparse_array(graph, weight)` (called at `_io.py:282`) for a graph with `n` nodes: every edge of an undirected graph is entered in both directions,
the self-loops being subtracted once.  A graph without nodes raises `NetworkXError`. -/
noncomputable def nxAdjacency (n : ℕ) (nx : NxGraph) : Py (Sp n n ℝ) :=
  if n = 0 then .error .unmodelled
  else if nx.directed then Gen.coo n nx.edges
  else Gen.coo n (nx.edges ++ nx.edges.map (fun e => (e.2.1, e.1, e.2.2)) ++
    (nx.edges.filter fun e => e.1 = e.2.1).map fun e => (e.1, e.1, -e.2.2))

/-- `signal[i] = value` after the signal has been looked up or created full of NaN (`_io.py:287-295`). -/
def setAttr {n : ℕ} (i : ℕ) (signals : List (Name × (Fin n → Option ℝ))) (attr : Name × Option ℝ) : List (Name × (Fin n → Option ℝ)) :=
  match dget signals attr.1 with
  | some x => dset signals attr.1 fun j => if j.1 = i then attr.2 else x j
  | none => dset signals attr.1 fun j => if j.1 = i then attr.2 else none

/-- The loop over the nodes and their attributes (`_io.py:285-295`). -/
def importSignals (n : ℕ) (attrs : List (List (Name × Option ℝ))) : List (Name × (Fin n → Option ℝ)) :=
  attrs.zipIdx.foldl (fun signals p => p.1.foldl (setAttr p.2) signals) []

/-- A dictionary of one-dimensional signals. -/
def signalsOf {V : Type} (l : List (Name × V)) : List (Name × Sig V) := l.map fun e => (e.1, .one e.2)

/-- `from_networkx` (`_io.py:279-298`) for a graph with `n` nodes. -/
noncomputable def fromNodes (n : ℕ) (nx : NxGraph) : Py Imported :=
  match nxAdjacency n nx with
  | .error e => .error e
  | .ok W =>
    match Graph.ofCsr W .combinatorial with
    | .error e => .error e
    | .ok g =>
      match joinSignals (signalsOf (importSignals n nx.attrs)) with
      | .error e => .error e
      | .ok s => .ok { n := n, graph := g, signals := s }

/-- `from_networkx` (`_io.py:279-298`). -/
noncomputable def fromNetworkx (nx : NxGraph) : Py Imported := fromNodes nx.attrs.length nx

/-- The number of vertices after `graph.add_edge_list(...)` (`_io.py:206`): a vertex is added when an edge needs it. -/
def gtVertices (edges : List (ℕ × ℕ × ℝ)) : ℕ := edges.foldr (fun e m => max m (max e.1 e.2.1 + 1)) 0

/-- `prop.get_array()[:] = signal` (`_io.py:214`) for a signal of length `n` and an array of length `m`: a signal of length one is
broadcast, other lengths must agree. -/
def gtAssign {n : ℕ} (m : ℕ) (x : Fin n → Option ℝ) : Py (Fin m → Option ℝ) :=
  if h : m = n then .ok fun i => x (h ▸ i)
  else if h : n = 1 then .ok fun _ => x ⟨0, by omega⟩
  else .error .valueError

/-- The vertex properties (`_io.py:211-215`). -/
def gtProps {n : ℕ} (m : ℕ) : List (Name × (Fin n → Option ℝ)) → Py (List (Name × (Fin m → Option ℝ)))
  | [] => .ok []
  | (k, x) :: l =>
    match gtAssign m x with
    | .error e => .error e
    | .ok y =>
      match gtProps m l with
      | .error e => .error e
      | .ok l => .ok ((k, y) :: l)

/-- `to_graphtool` (`_io.py:202-217`). -/
noncomputable def toGraphtool {n : ℕ} (g : Graph n ℝ) (signals : List (Name × Sig (Fin n → Option ℝ))) :
    Py (GtGraph × List (Name × Sig (Fin n → Option ℝ))) :=
  match g.getEdgeList with
  | .error e => .error e
  | .ok edges =>
    let broken := breakSignals signals
    match oneDim broken with
    | .error e => .error e
    | .ok l =>
      match gtProps (gtVertices (edgeNumbers edges)) l with
      | .error e => .error e
      | .ok props =>
        .ok ({ directed := isDirected g.W, n := gtVertices (edgeNumbers edges), edges := edgeNumbers edges, props := props }, broken)

/-- `gt.spectral.adjacency(graph, weight).T` (`_io.py:365-366`): graph-tool's matrix has the weight of `j → i` at `(i, j)`, so its transpose has
the weight of `i → j`.  In an undirected graph every edge counts in both directions, and a self-loop `loopFactor` times (this
depends on the version of graph-tool). -/
noncomputable def gtAdjacency (loopFactor : ℝ) (gt : GtGraph) : Py (Sp gt.n gt.n ℝ) :=
  if gt.n = 0 then .error .unmodelled
  else if gt.directed then Gen.coo gt.n gt.edges
  else Gen.coo gt.n ((gt.edges.filter fun e => e.1 ≠ e.2.1) ++ (gt.edges.filter fun e => e.1 ≠ e.2.1).map (fun e => (e.2.1, e.1, e.2.2)) ++
    (gt.edges.filter fun e => e.1 = e.2.1).map fun e => (e.1, e.1, loopFactor * e.2.2))

/-- `from_graphtool` (`_io.py:359-372`). -/
noncomputable def fromGraphtool (loopFactor : ℝ) (gt : GtGraph) : Py Imported :=
  match gtAdjacency loopFactor gt with
  | .error e => .error e
  | .ok W =>
    match Graph.ofCsr W .combinatorial with
    | .error e => .error e
    | .ok g =>
      match joinSignals (signalsOf gt.props) with
      | .error e => .error e
      | .ok s => .ok { n := gt.n, graph := g, signals := s }

/-! ## Files -/

/-- The argument `backend`. -/
inductive Backend
  | networkx | graphTool | none | other (name : String)
  deriving DecidableEq

/-- `os.path.splitext(path)[1][1:]` (`_io.py:426,533`): what follows the last dot of the file name, the leading dots of the name
not counting. -/
def guessFmt (path : Name) : Name :=
  let file := (path.reverse.takeWhile fun c => c ≠ '/').reverse
  let body := file.dropWhile fun c => c = '.'
  if '.' ∈ body then (body.reverse.takeWhile fun c => c ≠ '.').reverse else []

/-- The supported formats (`_io.py:427,534`). -/
def supported : List Name := ["graphml".toList, "gml".toList, "gexf".toList]

/-- The choice of the backend (`_io.py:441-454,547-560`), common to `load` and `save`: `nx` and `gt` are what the two backends do, an
ImportError included.  The state is carried along since a failing backend may have acted on it. -/
def dispatch {σ α : Type} (backend : Backend) (nx gt : σ → Py α × σ) (s : σ) : Py α × σ :=
  match backend with
  | .networkx => nx s
  | .graphTool => gt s
  | .none =>
    match nx s with
    | (.error .importError, s) =>
      match gt s with
      | (.error .importError, s) => (.error .importError, s)
      | r => r
    | r => r
  | .other _ => (.error .valueError, s)

/-- What the environment provides: whether the libraries can be imported, and their readers and writers. -/
structure Env (File : Type) where
  nxAvailable : Bool
  gtAvailable : Bool
  nxRead : Name → File → Py NxGraph
  nxWrite : Name → NxGraph → Py File
  gtRead : Name → File → Py GtGraph
  gtWrite : Name → GtGraph → Py File
  loopFactor : ℝ

/-- `Graph.load(path, fmt, backend)` (`_io.py:425-454`) on the content of the file. -/
noncomputable def load {File : Type} (env : Env File) (path : Name) (content : File) (fmt : Option Name) (backend : Backend) : Py Imported :=
  let fmt := fmt.getD (guessFmt path)
  if fmt ∉ supported then .error .valueError
  else
    (dispatch backend
      (fun u : Unit => (if env.nxAvailable then
        match env.nxRead fmt content with
        | .error e => .error e
        | .ok nx => fromNetworkx nx
      else .error .importError, u))
      (fun u => (if env.gtAvailable then
        match env.gtRead fmt content with
        | .error e => .error e
        | .ok gt => fromGraphtool env.loopFactor gt
      else .error .importError, u)) ()).1

/-- `G.save(path, fmt, backend)` (`_io.py:532-560`): the content of the file that is written, and the signals of the graph afterwards.  The
export breaks the signals before it can fail. -/
noncomputable def save {File : Type} (env : Env File) {n : ℕ} (g : Graph n ℝ) (signals : List (Name × Sig (Fin n → Option ℝ))) (path : Name)
    (fmt : Option Name) (backend : Backend) : Py File × List (Name × Sig (Fin n → Option ℝ)) :=
  let fmt := fmt.getD (guessFmt path)
  if fmt ∉ supported then (.error .valueError, signals)
  else
    dispatch backend
      (fun s => if env.nxAvailable then
        match toNetworkx g s with
        | .error e => (.error e, breakSignals s)
        | .ok (nx, s') => (env.nxWrite fmt nx, s')
      else (.error .importError, s))
      (fun s => if env.gtAvailable then
        match toGraphtool g s with
        | .error e => (.error e, breakSignals s)
        | .ok (gt, s') => (env.gtWrite fmt gt, s')
      else (.error .importError, s))
      signals

end PyGSP.IO
