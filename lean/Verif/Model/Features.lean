import Verif.Model.Filter

/-!
# `pygsp/features.py`

The attribute `G.spectr`, which `compute_spectrogram` sets to the array it returns, is not modelled.
-/

namespace PyGSP.Features

open Matrix Classical

variable {n : ℕ}

/-- `np.dot(G.A, G.A)` (`features.py:23`): the product of sparse Boolean matrices is a Boolean matrix, a sum of `True` being `True`. -/
noncomputable def boolMul (A B : Fin n → Fin n → Bool) (i j : Fin n) : Bool := decide (∃ k, A i k = true ∧ B k j = true)

/-- `np.sum(A, axis=1)`: the number of `True` in row `i`. -/
def countRow (A : Fin n → Fin n → Bool) (i : Fin n) : ℕ := (Finset.univ.filter fun j => A i j = true).card

/-- `compute_avg_adj_deg(G)` (`features.py:11-23`). -/
noncomputable def avgAdjDeg (s : GState n) : (Fin n → ℝ) × GState n :=
  let (A, s) := s.getA
  (fun i => countRow (boolMul A A) i / (countRow A i + 1), s)

/-- The keyword arguments that matter: whether `i` is among them (`utils.py:41`), and `method`. -/
structure Kwargs where
  hasI : Bool := false
  method : Option FMethod := none

/-- What a function decorated with `filterbank_handler` returns: an array, or a list of arrays. -/
inductive Out
  | one (a : Arr)
  | many (l : List Arr)

/-- The loop `for i in range(f.Nf): output.append(func(f, i=i))` (`utils.py:48-51`), `m` calls remaining. -/
def handlerLoop (func : GState n → Py Arr × GState n) : ℕ → List Arr → GState n → Py (List Arr) × GState n
  | 0, out, s => (.ok out, s)
  | m + 1, out, s =>
    match func s with
    | (.error e, s) => (.error e, s)
    | (.ok a, s) => handlerLoop func m (out ++ [a]) s

/-- `utils.filterbank_handler(func)(f, **kwargs)` (`utils.py:37-53`); `func true` is the call with the keyword `i`. -/
def filterbankHandler (func : GState n → Py Arr × GState n) (Nf : ℕ) (kw : Kwargs) (s : GState n) : Py Out × GState n :=
  if kw.hasI ∨ Nf ≤ 1 then
    match func s with
    | (.error e, s) => (.error e, s)
    | (.ok a, s) => (.ok (.one a), s)
  else
    match handlerLoop func Nf [] s with
    | (.error e, s) => (.error e, s)
    | (.ok l, s) => (.ok (.many l), s)

/-- `compute_tig` without its decorator (`features.py:41`): neither `i` nor the other arguments are used; `compute_frame()` uses the method
`chebyshev` and the order 30. -/
noncomputable def tig (S : Solvers n) (f : Bank) (_ : Kwargs) (s : GState n) : Py Arr × GState n := f.computeFrame S .chebyshev 30 s

/-- `compute_tig(g, **kwargs)` (`features.py:26-41`). -/
noncomputable def computeTig (S : Solvers n) (f : Bank) (kw : Kwargs) (s : GState n) : Py Out × GState n :=
  filterbankHandler (tig S f kw) f.Nf kw s

/-- `np.linalg.norm(tig, axis=1, ord=2)` of a 2-D array (`features.py:59`). -/
noncomputable def normRows (a : Arr) : Arr :=
  match a.shape with
  | [m, w] => Arr.of1 fun i : Fin m => √(∑ j : Fin w, a.val [i, j] ^ 2)
  | _ => a

/-- `compute_norm_tig` without its decorator (`features.py:58-59`).  The call of `compute_tig` in it is made with the keyword `i` when there are
several filters, so that it gives an array. -/
noncomputable def normTig (S : Solvers n) (f : Bank) (kw : Kwargs) (s : GState n) : Py Arr × GState n :=
  match tig S f kw s with
  | (.error e, s) => (.error e, s)
  | (.ok a, s) => (.ok (normRows a), s)

/-- `compute_norm_tig(g, **kwargs)` (`features.py:44-59`). -/
noncomputable def computeNormTig (S : Solvers n) (f : Bank) (kw : Kwargs) (s : GState n) : Py Out × GState n :=
  filterbankHandler (normTig S f kw) f.Nf kw s

/-- `np.linspace(0, lmax, M)[j]` (`features.py:85`). -/
noncomputable def linspace (lmax : ℝ) (M : ℕ) (j : ℕ) : ℝ := if M = 1 then 0 else j * (lmax / (M - 1))

/-- The default atom (`features.py:80-83`). -/
noncomputable def defaultAtom (lmax : ℝ) (M : ℕ) (x : ℝ) : ℝ := Real.exp (-M * (x / lmax) ^ 2)

/-- `spectr[:, j] = a.squeeze() ** 2` (`features.py:90-91`): the array must have `N` entries, or one. -/
noncomputable def column (a : Arr) : Py (Fin n → ℝ) :=
  let a := a.squeeze
  if a.shape = [n] then .ok fun i => a.val [i] ^ 2
  else if a.shape = [] then .ok fun _ => a.val [] ^ 2
  else .error .valueError

/-- The loop over the shifts (`features.py:88-91`), from shift `j` on, `m` remaining. -/
noncomputable def shiftLoop (S : Solvers n) (atom : ℝ → ℝ) (lmax : ℝ) (M : ℕ) (kw : Kwargs) :
    (m : ℕ) → ℕ → (ℕ → Fin n → ℝ) → GState n → Py (ℕ → Fin n → ℝ) × GState n
  | 0, _, out, s => (.ok out, s)
  | m + 1, j, out, s =>
    let f := Bank.ofArg (.one (Kernel.pointwise fun x => atom (x - linspace lmax M j)))
    match computeNormTig S f kw s with
    | (.error e, s) => (.error e, s)
    | (.ok (.many _), s) => (.error .attributeError, s)
    | (.ok (.one a), s) =>
      match column a with
      | .error e => (.error e, s)
      | .ok c => shiftLoop S atom lmax M kw m (j + 1) (Function.update out j c) s

/-- `compute_spectrogram(G, atom, M, **kwargs)` (`features.py:62-94`): the array, as a function of the shift and of the vertex. -/
noncomputable def computeSpectrogram (S : Solvers n) (atom : Option (ℝ → ℝ)) (M : ℕ) (kw : Kwargs) (s : GState n) :
    Py (Fin n → Fin M → ℝ) × GState n :=
  match Bank.lmaxNum S s with
  | (.error e, s) => (.error e, s)
  | (.ok l, s) =>
    match shiftLoop S (atom.getD (defaultAtom l M)) l M kw M 0 (fun _ _ => 0) s with
    | (.error e, s) => (.error e, s)
    | (.ok out, s) => (.ok fun i j => out j i, s)

/-- The modules of the library `pyqtgraph` (`plotting.py:51-71`). -/
inductive QtModule
  | qtg | gl | QtGui | QtWidgets

/-- `_import_qtg()` (`plotting.py:51-71`): a tuple of modules (`QtWidgets` may be None), or ImportError. -/
def importQtg (installed : Bool) : Py (List (Option QtModule)) :=
  if installed then .ok [some .qtg, some .gl, some .QtGui, some .QtWidgets] else .error .importError

/-- `a, b, c = t`: ValueError when the tuple does not have three elements. -/
def unpack3 {α : Type} : List α → Py (α × α × α)
  | [a, b, c] => .ok (a, b, c)
  | _ => .error .valueError

/-- `_plot_spectrogram(G, node_idx)` (`plotting.py:722-786`, `graph.py:1069-1073`); `rest` is what it does after line 743 (it would call `compute_spectrogram` and draw). -/
def plotSpectrogram (installed : Bool) (rest : Option QtModule → GState n → Py Unit × GState n) (s : GState n) : Py Unit × GState n :=
  match importQtg installed with
  | .error e => (.error e, s)
  | .ok t =>
    match unpack3 t with
    | .error e => (.error e, s)
    | .ok (qtg, _, _) => rest qtg s

end PyGSP.Features
