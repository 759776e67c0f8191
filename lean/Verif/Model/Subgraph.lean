import Verif.Model.Graph

/-!
# `Graph.set_signal`, `Graph.subgraph`, `Graph.extract_components` (`pygsp/graphs/graph.py`)
-/

namespace PyGSP

variable {n : ℕ} {K : Type}

/-- A graph with its coordinates and attached signals. `R` is the type of one row (the value of a
signal or coordinate array at one vertex: a number or an array of numbers).
`coords` is absent when the attribute has not been set (`graph.py:142-144`);
`signals` is the insertion-ordered dictionary `G.signals` (`graph.py:156`). -/
structure GraphObj (n : ℕ) (K R : Type) where
  graph : Graph n K
  coords : Option (Fin n → R)
  signals : List (String × (Fin n → R))

/-- An array given by its rows, of any length. -/
structure Rows (R : Type) where
  len : ℕ
  row : Fin len → R

/-- `Graph._check_signal` (`graph.py:632-640`): the first dimension must be `n_vertices`. -/
def checkSignal {R : Type} (n : ℕ) (s : Rows R) : Py (Fin n → R) :=
  if h : s.len = n then .ok (fun i => s.row (i.cast h.symm)) else .error .valueError

/-- Python dictionary assignment `d[k] = v`: replaces in place or appends. -/
def dictSet {V : Type*} (d : List (String × V)) (k : String) (v : V) : List (String × V) :=
  if d.any (fun p => p.1 = k) then d.map (fun p => if p.1 = k then (k, v) else p)
  else d ++ [(k, v)]

/-- `Graph.set_signal` (`graph.py:215-216`). -/
def GraphObj.setSignal {R : Type} (g : GraphObj n K R) (s : Rows R) (name : String) :
    Py (GraphObj n K R) := do
  let s ← checkSignal n s
  return { g with signals := dictSet g.signals name s }

/-- `Graph.subgraph` (`graph.py:247-255`).  The new graph is built by the constructor from
`self.W[vertices, :][:, vertices]` (a finite CSR matrix, so only the second half of the constructor
matters); coordinates are copied when present; signals are re-attached with `set_signal` in the
dictionary order. Plotting parameters are not modelled. -/
def GraphObj.subgraph {R : Type} [Field K] [LinearOrder K] (g : GraphObj n K R) (vertices : VSel n) :
    Py (GraphObj vertices.toList.length K R) := do
  let l := vertices.toList
  let g' ← Graph.ofCsr (g.graph.W.fancyIndex l l) g.graph.lapType
  let coords := g.coords.map fun c => fun a => c (l.get a)
  g.signals.foldlM (fun o p => o.setSignal ⟨l.length, fun a => p.2 (l.get a)⟩ p.1)
    { graph := g', coords := coords, signals := [] }

/-- One element of the list returned by `extract_components`: the subgraph and its
`info['orig_idx']`. -/
structure Component (n : ℕ) (K R : Type) where
  origIdx : List (Fin n)
  obj : GraphObj origIdx.length K R

/-- `Graph.extract_components` (`graph.py:469-508`). (`A` is always square, lines 469-473 are dead.)
The number of outer iterations is bounded by `n` (`C09`), so `none` is never reached. -/
def GraphObj.extractComponents {R : Type} [Field K] [LinearOrder K] (pop : Pop n) (g : GraphObj n K R) :
    Py (List (Component n K R)) :=
  if isDirected g.graph.W then .error .notImplementedError
  else
    match componentsLoop (posAdj g.graph.W) pop n ∅ with
    | none => .error .valueError
    | some comps => comps.mapM fun comp => do
        let o ← g.subgraph (.idx comp)
        return { origIdx := comp, obj := o }

end PyGSP
