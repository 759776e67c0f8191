import Verif.Model.Generators
import Mathlib.Data.Fin.Tuple.Sort

/-!
# `pygsp/graphs/stochasticblockmodel.py` and `erdosrenyi.py`

The random number generator is an arbitrary sequence: `u c` is the result of the `c`-th call to `rng.uniform()`.  The labels drawn by
`rng.integers(0, k, N)` are an arbitrary function.
-/

namespace PyGSP.Gen

open Matrix

/-- `z = rng.integers(0, k, N); z.sort()` (`stochasticblockmodel.py:85-87`), or the labels given by the user. -/
def sbmLabels {N k : ℕ} (drawn : Fin N → Fin k) : Option (Fin N → Fin k) → Fin N → Fin k
  | none => drawn ∘ Tuple.sort drawn
  | some z => z

/-- The argument `p` : a number or an array. -/
inductive PArg
  | scalar (p : ℝ)
  | vector (len : ℕ) (p : ℕ → ℝ)

/-- The argument `q` : None, a number, or a two-dimensional array, whose dtype is either integer or float. -/
inductive QArg
  | default
  | scalar (q : ℝ)
  | matrix (isInt : Bool) (rows cols : ℕ) (q : ℕ → ℕ → ℝ)

/-- A float written into an integer array is truncated towards zero. -/
noncomputable def truncate (x : ℝ) : ℝ := if 0 ≤ x then (⌊x⌋ : ℝ) else (⌈x⌉ : ℝ)

/-- The probabilities inside the blocks (`stochasticblockmodel.py:90-99`). -/
def sbmP (k : ℕ) : PArg → Py (Fin k → ℝ)
  | .scalar p => .ok fun _ => p
  | .vector len p => if len = 1 then .ok fun _ => p 0 else if len = k then .ok fun i => p i.1 else .error .valueError

/-- The matrix of probabilities built from `p` and `q` (`stochasticblockmodel.py:101-114`), and the content of the array `q` of the
user after the call: `M = q` is not a copy when `q` is a `k x k` array with more than one element, so that writing the diagonal of `M`
writes into the array of the user, with its dtype. -/
noncomputable def sbmQ (k : ℕ) (p : Fin k → ℝ) : QArg → Py (Matrix (Fin k) (Fin k) ℝ × QArg)
  | .default => .ok (Matrix.of fun i j => if i = j then p i else 0.3 / k, .default)
  | .scalar x => .ok (Matrix.of fun i j => if i = j then p i else x, .scalar x)
  | .matrix isInt r c x =>
    if r * c = 1 then .ok (Matrix.of fun i j => if i = j then p i else x 0 0, .matrix isInt r c x)
    else if r = k ∧ c = k then
      let v : Fin k → ℝ := fun i => if isInt then truncate (p i) else p i
      .ok (Matrix.of fun i j => if i = j then v i else x i.1 j.1,
        .matrix isInt r c fun i j => if h : i = j ∧ i < k then v ⟨i, h.2⟩ else x i j)
    else .error .valueError

/-- The probabilities (`stochasticblockmodel.py:90-116`). -/
noncomputable def sbmMatrix (k : ℕ) (p : PArg) (q : QArg) : Py (Matrix (Fin k) (Fin k) ℝ × QArg) :=
  match sbmP k p with
  | .error e => .error e
  | .ok p => sbmQ k p q

/-- `(M < 0).any() or (M > 1).any()` raises ValueError (`stochasticblockmodel.py:118-119`). -/
noncomputable def sbmCheck {k : ℕ} (M : Matrix (Fin k) (Fin k) ℝ) : Py Unit :=
  open Classical in if (∃ i j, M i j < 0) ∨ ∃ i j, 1 < M i j then .error .valueError else .ok ()

/-- The variables of the sampling loop: `nb_row`, `nb_col`, the number of calls to the generator, the triplets. -/
structure SbmState where
  row : ℕ
  col : ℕ
  calls : ℕ
  acc : List (ℕ × ℕ × ℝ)

section
variable {N k : ℕ} (M : Matrix (Fin k) (Fin k) ℝ) (z : Fin N → Fin k) (directed loops : Bool) (u : ℕ → ℝ)

/-- One iteration of the sampling loop (`stochasticblockmodel.py:128-139`).  (The indices are smaller than `N` whenever the body is
executed.) -/
noncomputable def sbmStep (s : SbmState) : SbmState :=
  open Classical in
  let s' : SbmState :=
    if s.row ≠ s.col ∨ loops = true then
      if s.col ≤ s.row ∨ directed = true then
        if h : s.row < N ∧ s.col < N then
          if u s.calls < M (z ⟨s.row, h.1⟩) (z ⟨s.col, h.2⟩) then { s with calls := s.calls + 1, acc := s.acc ++ [(s.row, s.col, 1)] }
          else { s with calls := s.calls + 1 }
        else s
      else s
    else s
  if s.row < N - 1 then { s' with row := s.row + 1 } else { s' with row := 0, col := s.col + 1 }

/-- One pass over all the pairs (`stochasticblockmodel.py:126-144`), starting after `calls` calls to the generator: the matrix, and
the number of calls afterwards. -/
noncomputable def sbmAttempt (calls : ℕ) : Py (Matrix (Fin N) (Fin N) ℝ) × ℕ :=
  let s := (List.range (N * N)).foldl (fun s _ => sbmStep M z directed loops u s) ⟨0, 0, calls, []⟩
  let W : Py (Matrix (Fin N) (Fin N) ℝ) := match coo N s.acc with
    | .error e => .error e
    | .ok W => if directed then .ok W.dense else symmetrize true W.dense .tril
  (W, s.calls)

/-- The `while` loop with `n_try = t` trials left (`stochasticblockmodel.py:125-151`): the matrix, or None if all the trials were used
up. -/
noncomputable def sbmTry (connected : Bool) (pop : ℕ → Pop N) : ℕ → ℕ → Py (Option (Matrix (Fin N) (Fin N) ℝ))
  | 0, _ => .ok none
  | t + 1, calls =>
    match sbmAttempt M z directed loops u calls with
    | (.error e, _) => .error e
    | (.ok W, calls') =>
      if connected then
        match Graph.ofCsr (Sp.ofDense W) .combinatorial with
        | .error e => .error e
        | .ok g => match isConnected (pop calls) g.W with
          | .error e => .error e
          | .ok true => .ok (some W)
          | .ok false => sbmTry connected pop t calls'
      else .ok (some W)

/-- The rest of the constructor (`stochasticblockmodel.py:152-165`): without a matrix, ValueError if a connected graph was asked for,
otherwise (`n_try = 0`) the local variable `W` is unbound. -/
noncomputable def sbmFinish (connected : Bool) (lt : LapType) : Py (Option (Matrix (Fin N) (Fin N) ℝ)) → Py (Graph N ℝ)
  | .error e => .error e
  | .ok none => .error (if connected then .valueError else .nameError)
  | .ok (some W) => Graph.ofCsr (Sp.ofDense W) lt

/-- `StochasticBlockModel` for given probabilities and labels (`stochasticblockmodel.py:116-165`).  With `n_try=None` the loop is not
bounded: the result is `none` when it does not terminate. -/
noncomputable def sbm (connected : Bool) (pop : ℕ → Pop N) (nTry : Option ℕ) (lt : LapType) : Option (Py (Graph N ℝ)) :=
  match sbmCheck M with
  | .error e => some (.error e)
  | .ok _ =>
    match nTry with
    | some t => some (sbmFinish connected lt (sbmTry M z directed loops u connected pop t 0))
    | none =>
      open Classical in
      if h : ∃ t, sbmTry M z directed loops u connected pop t 0 ≠ .ok none then
        some (sbmFinish connected lt (sbmTry M z directed loops u connected pop (Nat.find h) 0))
      else none

end

/-- `ErdosRenyi(N, p)` (`erdosrenyi.py:40-61`): a block model with one block. -/
noncomputable def erdosRenyi (N : ℕ) (p : ℝ) (directed loops connected : Bool) (u : ℕ → ℝ) (pop : ℕ → Pop N) (nTry : Option ℕ) (lt : LapType) :
    Option (Py (Graph N ℝ)) :=
  match sbmMatrix 1 (.scalar p) .default with
  | .error e => some (.error e)
  | .ok (M, _) => sbm M (sbmLabels (fun _ => 0) none) directed loops u connected pop nTry lt

end PyGSP.Gen
