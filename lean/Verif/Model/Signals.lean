import Verif.Model.Py
import Mathlib.Data.Nat.Notation

/-!
# The signals of a graph and their conversion for the exchange formats (`pygsp/graphs/_io.py:29-52`)

The attribute `G.signals` is a Python dictionary: the list of its items in insertion order, no key twice.  A name is the list of
its characters.  A signal is a one-dimensional array (`V` is the type of those), or a two-dimensional array, given by its list of columns.
Arrays with more dimensions, which neither function touches, are not modelled.
-/

namespace PyGSP.IO

/-- The name of a signal. -/
abbrev Name := List Char

/-- A signal: `ndim == 1`, or `ndim == 2` with its columns `signal.T`. -/
inductive Sig (V : Type*)
  | one (x : V)
  | two (cols : List V)
  deriving DecidableEq

variable {α V : Type*}

/-- `d.get(k)`. -/
def dget (d : List (Name × α)) (k : Name) : Option α :=
  match d with
  | [] => none
  | (k', v) :: d => if k' = k then some v else dget d k

/-- `d[k] = v`: an existing key keeps its place, a new one goes to the end. -/
def dset (d : List (Name × α)) (k : Name) (v : α) : List (Name × α) :=
  match d with
  | [] => [(k, v)]
  | (k', v') :: d => if k' = k then (k, v) :: d else (k', v') :: dset d k v

/-- `del d[k]`. -/
def ddel (d : List (Name × α)) (k : Name) : List (Name × α) := d.filter fun e => e.1 ≠ k

/-- `d.keys()`. -/
def dkeys (d : List (Name × α)) : List Name := d.map fun e => e.1

/-- `name + "_" + str(i)` (`_io.py:35`). -/
def colName (name : Name) (i : ℕ) : Name := name ++ '_' :: Nat.toDigits 10 i

/-- `name.rsplit("_", 1)[0]` (`_io.py:42`): what precedes the last underscore, the whole name if there is none. -/
def rsplitBase (name : Name) : Name :=
  if '_' ∈ name then ((name.reverse.dropWhile fun c => c ≠ '_').drop 1).reverse else name

/-- The body of the loop of `_break_signals` (`_io.py:32-36`) for one name. -/
def breakOne (d : List (Name × Sig V)) (name : Name) : List (Name × Sig V) :=
  match dget d name with
  | some (.two cols) => ddel (cols.zipIdx.foldl (fun d p => dset d (colName name p.2) (.one p.1)) d) name
  | _ => d

/-- `_break_signals` (`_io.py:30-36`). -/
def breakSignals (d : List (Name × Sig V)) : List (Name × Sig V) := (dkeys d).foldl breakOne d

/-- The dictionary `joined` (`_io.py:40-45`): for every base name, the names that have it. -/
def joinedNames (names : List Name) : List (Name × List Name) :=
  names.foldl (fun joined name => dset joined (rsplitBase name) ((dget joined (rsplitBase name)).getD [] ++ [name])) []

/-- `a <= b` for Python strings: the first different characters are compared by code point, a prefix comes first. -/
def nameLe : Name → Name → Bool
  | [], _ => true
  | _ :: _, [] => false
  | c :: a, d :: b => if c = d then nameLe a b else decide (c.toNat < d.toNat)

/-- `sorted(names)` (`_io.py:48`). -/
def sortNames (names : List Name) : List Name := names.mergeSort nameLe

/-- `[self.signals[n] for n in names]` and `np.stack(..., axis=1)` (`_io.py:49`): a missing key raises KeyError.  Stacking
two-dimensional arrays (a ValueError if another one is one-dimensional) is not modelled. -/
def stackSignals (d : List (Name × Sig V)) : List Name → Py (List V)
  | [] => .ok []
  | n :: names =>
    match dget d n with
    | none => .error .keyError
    | some (.two _) => .error .unmodelled
    | some (.one x) =>
      match stackSignals d names with
      | .error e => .error e
      | .ok l => .ok (x :: l)

/-- The body of the second loop of `_join_signals` (`_io.py:46-52`). -/
def joinOne (d : List (Name × Sig V)) (base : Name) (names : List Name) : Py (List (Name × Sig V)) :=
  if 1 < names.length then
    match stackSignals d (sortNames names) with
    | .error e => .error e
    | .ok cols => .ok ((sortNames names).foldl ddel (dset d base (.two cols)))
  else .ok d

/-- The second loop of `_join_signals` (`_io.py:46-52`). -/
def joinLoop (d : List (Name × Sig V)) : List (Name × List Name) → Py (List (Name × Sig V))
  | [] => .ok d
  | (base, names) :: rest =>
    match joinOne d base names with
    | .error e => .error e
    | .ok d => joinLoop d rest

/-- `_join_signals` (`_io.py:38-52`). -/
def joinSignals (d : List (Name × Sig V)) : Py (List (Name × Sig V)) := joinLoop d (joinedNames (dkeys d))

end PyGSP.IO
