import Verif.Model.Graph
import Verif.Model.Filter

/-!
# Printed forms of graphs and filters

Texts are lists of characters.  How a value is formatted (`str(value)`, `f"{x:.2f}"`) is a parameter: an attribute is a pair (key, text of its value).
-/

namespace PyGSP.Repr

abbrev Txt := List Char

/-- One turn of `s += f"{key}={value}, "` (`graph.py:184, 189`, `filter.py:80`). -/
def item (key value : Txt) : Txt := key ++ '=' :: value ++ [',', ' ']

/-- The loop over the extra attributes (`graph.py:185-189`), `i` the index of `enumerate`: the test `i == limit - 2`, the ellipsis and the `break`. -/
def extraLoop (limit : Option ℤ) : ℕ → List (Txt × Txt) → Txt
  | _, [] => []
  | i, (key, value) :: rest =>
    if limit.map (· - 2) = some (i : ℤ) then ['.', '.', '.', ',', ' '] else item key value ++ extraLoop limit (i + 1) rest

/-- `s[:-2]`. -/
def dropTwo (s : Txt) : Txt := s.take (s.length - 2)

/-- `f"{n}"` for a natural number. -/
def decimal (k : ℕ) : Txt := Nat.toDigits 10 k

/-- `Graph.__repr__` (`graph.py:181-190`); `cls` is `self.__class__.__name__`, `extra` the items of `self._get_extra_repr()`. -/
def graphRepr {n : ℕ} {K : Type} (cls : Txt) (extra : List (Txt × Txt)) (limit : Option ℤ) (g : Graph n K) : Txt :=
  let s := item "n_vertices".toList (decimal n) ++ item "n_edges".toList (decimal g.nEdges) ++ extraLoop limit 0 extra
  cls ++ '(' :: dropTwo s ++ [')']

/-- The title a plot gets when none is asked for: `G.__repr__(limit=4)` (`plotting.py:525-526`). -/
def plotTitle {n : ℕ} {K : Type} (cls : Txt) (extra : List (Txt × Txt)) (g : Graph n K) : Txt := graphRepr cls extra (some 4) g

/-- `d[key] = value` on a dictionary: the value is replaced where the key is, or the pair goes at the end. -/
def attrSet (d : List (Txt × Txt)) (key value : Txt) : List (Txt × Txt) :=
  if d.any (fun p => p.1 = key) then d.map fun p => if p.1 = key then (key, value) else p else d ++ [(key, value)]

/-- `d.update(e)` (`filter.py:77`, `cube.py:95`, `sphere.py:70`, `twomoons.py:125`, `imgpatches.py:104`, `grid2dimgpatches.py:46`). -/
def attrUpdate (d e : List (Txt × Txt)) : List (Txt × Txt) := e.foldl (fun d p => attrSet d p.1 p.2) d

/-- `Filter.__repr__` (`filter.py:75-81`): `n_features_in` is 1 and `n_features_out` the number of kernels (`filter.py:66`). -/
noncomputable def filterRepr (cls : Txt) (extra : List (Txt × Txt)) (f : Bank) : Txt :=
  let attrs := attrUpdate [("in".toList, decimal 1), ("out".toList, decimal f.Nf)] extra
  cls ++ '(' :: dropTwo (attrs.flatMap fun p => item p.1 p.2) ++ [')']

end PyGSP.Repr
