import Verif.Model.Features
import Verif.Model.Designs
import Verif.Model.Approx
import Verif.Model.Reduction
import Verif.Model.Layout

/-!
# Programs that call the methods of a graph and the functions of the library that receive it

The functions `tree_multiresolution` (`pygsp/reduction.py`), `prox_tv` (`pygsp/optimization.py`) and `lanczos_op` (`pygsp/filters/approximations.py`), which
never return, and a list of the calls whose model has the state of the graph as a result.  `graph_multiresolution`, which also modifies the cached Fourier basis in place, is in
`Model/Multires.lean`; the functions of `pygsp/learning.py` read `G.L` only (`Model/Learning.lean`).
-/

namespace PyGSP

open Matrix

variable {n : ℕ}

/-- `tree_multiresolution(G, Nlevel, reduction_method, compute_full_eigen, root)` (`reduction.py:663-787`): the basis is computed if requested (lines 701-702), `G.A` is read (line 705), and
`_tree_depths` calls `graphs.Graph(A=A)`, which is a TypeError (`reduction.py:634`): `adjacency` is missing and `A` is not an argument.  The arguments `Nlevel` and `reduction_method` have not been
looked at; `root` is a number or None. -/
noncomputable def treeMultiresolution (S : Solvers n) (fullEigen : Bool) (s : GState n) : Py Unit × GState n :=
  if fullEigen then
    match s.computeFourierBasis S none with
    | (.error e, s) => (.error e, s)
    | (.ok (), s) => (.error .typeError, s.getA.2)
  else (.error .typeError, s.getA.2)

/-- `prox_tv(x, gamma, G, ...)` (`optimization.py:24-103`): `2 * G.lmax * nu` (line 82), the import of pyunlocbox (line 100), and the name `verbose`, which is not defined (line 102).  The functions defined
on lines 71-98 are not called. -/
noncomputable def proxTv (S : Solvers n) (unlocbox : Bool) (s : GState n) : Py Unit × GState n :=
  match Bank.lmaxNum S s with
  | (.error e, s) => (.error e, s)
  | (.ok _, s) => if unlocbox then (.error .nameError, s) else (.error .importError, s)

/-- `lanczos_op(f, s, order)` (`approximations.py:228-278`): a filter has no attribute `g` (line 247). -/
def lanczosOp (_ : Bank) (_ : Arr) (_ : ℕ) (s : GState n) : Py Arr × GState n := (.error .attributeError, s)

/-- A call that receives the graph: one of its own methods, or a function of the library (with the file and lines of the definition cited by its model). -/
inductive Call (n : ℕ)
  | own (op : Op n)
  | gft (x : Rows ℝ)
  | igft (x : Rows ℝ)
  | filter (f : Bank) (a : Arr) (method : FMethod) (order : ℕ)
  | analyze (f : Bank) (a : Arr) (method : FMethod) (order : ℕ)
  | synthesize (f : Bank) (a : Arr) (method : FMethod) (order : ℕ)
  | localize (f : Bank) (i : Fin n) (method : FMethod) (order : ℕ)
  | computeFrame (f : Bank) (method : FMethod) (order : ℕ)
  | estimateFrameBounds (f : Bank) (x : Option (Rows ℝ))
  | inverse (f : Bank)
  | gaborFilter (f : Bank) (a : Arr) (method : FMethod) (order : ℕ)
  | modulationFilter (mother : Bank) (x : Fin n → ℝ)
  | chebyRect (ns : ℕ) (bounds : Option (List ℝ)) (X : Matrix (Fin n) (Fin ns) ℝ) (order : ℤ)
  | lanczosOp (f : Bank) (a : Arr) (order : ℕ)
  | avgAdjDeg
  | computeTig (f : Bank) (kw : Features.Kwargs)
  | computeNormTig (f : Bank) (kw : Features.Kwargs)
  | computeSpectrogram (atom : Option (ℝ → ℝ)) (M : ℕ) (kw : Features.Kwargs)
  | interpolate (hasMr : Bool) (f : Arr) (k : ℕ) (ind : Fin k → Fin n) (order : ℕ) (eps : ℝ) (method : FMethod)
  | setCoordinates (draw : (d : ℕ) → Fin n → Fin d → ℝ) (kind : Layout.Kind) (p : Layout.Spring n) (coords : Layout.Coords) (info : Option (Layout.Info n))
  | treeMultiresolution (fullEigen : Bool)
  | proxTv (unlocbox : Bool)

/-- Whether a call returns, and the state of the graph afterwards. -/
noncomputable def Call.run (S : Solvers n) (c : Call n) (s : GState n) : Py Unit × GState n :=
  let drop {α : Type} (r : Py α × GState n) : Py Unit × GState n := (r.1.map fun _ => (), r.2)
  match c with
  | .own op => op.run S s
  | .gft x => drop (s.gft S x)
  | .igft x => drop (s.igft S x)
  | .filter f a m o => drop (f.filter S a m o s)
  | .analyze f a m o => drop (f.analyze S a m o s)
  | .synthesize f a m o => drop (f.synthesize S a m o s)
  | .localize f i m o => drop (f.localize S i m o s)
  | .computeFrame f m o => drop (f.computeFrame S m o s)
  | .estimateFrameBounds f x => drop (f.estimateFrameBounds S x s)
  | .inverse f => drop (f.inverse S s)
  | .gaborFilter f a m o => drop (Design.gaborFilter S f a m o s)
  | .modulationFilter f x => drop (Design.modulationLoop S f x (List.finRange n) (fun _ _ => 0) s)
  | .chebyRect _ b X o => drop (PyGSP.chebyRect S b X o s)
  | .lanczosOp f a o => drop (PyGSP.lanczosOp f a o s)
  | .avgAdjDeg => (.ok (), (Features.avgAdjDeg s).2)
  | .computeTig f kw => drop (Features.computeTig S f kw s)
  | .computeNormTig f kw => drop (Features.computeNormTig S f kw s)
  | .computeSpectrogram a M kw => drop (Features.computeSpectrogram S a M kw s)
  | .interpolate mr f _ ind o eps m => drop (Reduction.interpolate S mr f ind o eps m s)
  | .setCoordinates draw kind p c i => let r := Layout.setCoordinates S draw kind p ⟨s, c, i⟩; (r.1, r.2.g)
  | .treeMultiresolution full => PyGSP.treeMultiresolution S full s
  | .proxTv u => PyGSP.proxTv S u s

/-- The state after a program; exceptions are caught by the caller. -/
noncomputable def runCalls (S : Solvers n) (prog : List (Call n)) (s : GState n) : GState n :=
  prog.foldl (fun s c => (c.run S s).2) s

end PyGSP
