import Verif.Model.Repr
import Verif.Model.Generators

/-!
# The extra attributes printed for the classes of graphs (`_get_extra_repr`)

A whole number is printed in base ten, a boolean as True or False.  The text of a floating-point number is a parameter.
-/

namespace PyGSP.Repr

/-- `str(b)`. -/
def boolText (b : Bool) : Txt := if b then "True".toList else "False".toList

/-- `Path._get_extra_repr` (`path.py:77-78`). -/
def pathExtra (directed : Bool) : List (Txt × Txt) := [("directed".toList, boolText directed)]

/-- `Ring._get_extra_repr` (`ring.py:92-93`). -/
def ringExtra (k : ℕ) : List (Txt × Txt) := [("k".toList, decimal k)]

/-- `Torus._get_extra_repr` (`torus.py:109-110`). -/
def torusExtra (Nv Mv : ℕ) : List (Txt × Txt) := [("Nv".toList, decimal Nv), ("Mv".toList, decimal Mv)]

/-- `Grid2d._get_extra_repr` (`grid2d.py:91-92`); `N2` is `N1` if it is not given (`grid2d.py:41-42`). -/
def grid2dExtra (N1 N2 : ℕ) : List (Txt × Txt) := [("N1".toList, decimal N1), ("N2".toList, decimal N2)]

/-- `Comet._get_extra_repr` (`comet.py:75-76`). -/
def cometExtra (k : ℕ) : List (Txt × Txt) := [("k".toList, decimal k)]

/-- `Star._get_extra_repr` (`star.py:36-37`) and `Graph._get_extra_repr` (`graph.py:178-179`), for FullConnected. -/
def noExtra : List (Txt × Txt) := []

/-- The attributes of a `StochasticBlockModel` that are printed: `pq` is `none` when the matrix `M` was given, as the attributes `p` and `q` are then never set
(`stochasticblockmodel.py:90-104`), otherwise the texts of `p` and `q` when they are floats. -/
structure BlockAttrs where
  k : ℕ
  pq : Option (Option Txt × Option Txt)
  directed : Bool
  selfLoops : Bool
  connected : Bool
  seed : Txt

/-- `StochasticBlockModel._get_extra_repr` (`stochasticblockmodel.py:167-181`). -/
def blockExtra (a : BlockAttrs) : Py (List (Txt × Txt)) :=
  match a.pq with
  | none => .error .attributeError
  | some (p, q) => .ok ([("k".toList, decimal a.k)] ++ (p.map fun t => ("p".toList, t)).toList ++ (q.map fun t => ("q".toList, t)).toList ++
      [("directed".toList, boolText a.directed), ("self_loops".toList, boolText a.selfLoops), ("connected".toList, boolText a.connected), ("seed".toList, a.seed)])

/-- `repr` of a `StochasticBlockModel`: the error of `_get_extra_repr` goes through `__repr__` (`graph.py:181-190`). -/
def blockRepr {n : ℕ} {K : Type} (cls : Txt) (a : BlockAttrs) (limit : Option ℤ) (g : Graph n K) : Py Txt := do
  let extra ← blockExtra a
  .ok (graphRepr cls extra limit g)

end PyGSP.Repr
