import Verif.Model.Array
import Verif.Model.Fourier
import Mathlib.Analysis.SpecialFunctions.Trigonometric.Basic

/-!
# Filter banks (`pygsp/filters/filter.py`) and their Chebyshev approximation (`pygsp/filters/approximations.py`)
-/

namespace PyGSP

open Matrix

variable {n : ℕ}

/-- A kernel: a Python function called on a 1-D array of frequencies.  It may raise, and it may look at the whole
array (`complement` does).  Simplification: it is pure and it returns as many numbers as it was given. -/
abbrev Kernel := (k : ℕ) → (Fin k → ℝ) → Py (Fin k → ℝ)

/-- A kernel that is a mathematical function applied entry by entry. -/
def Kernel.pointwise (g : ℝ → ℝ) : Kernel := fun _ x => .ok fun j => g (x j)

/-- What the constructor is given (`filter.py:56-63`): one kernel or a list of kernels. -/
inductive KernelArg
  | one (g : Kernel)
  | many (gs : List Kernel)

/-- A `Filter` object, without its graph: `_kernels` (`filter.py:63`). -/
structure Bank where
  kernels : List Kernel

namespace Bank

/-- `Filter.__init__` (`filter.py:56-69`): a kernel that is not iterable becomes a list of one kernel. -/
def ofArg : KernelArg → Bank
  | .one g => ⟨[g]⟩
  | .many gs => ⟨gs⟩

/-- `n_filters`, `Nf`, `len(f)` (`filter.py:66-69, 83-85`). -/
abbrev Nf (f : Bank) : ℕ := f.kernels.length

/-- What indexes a filter bank: an integer (negative counts from the end) or a slice `[lo:hi]` with `0 <= lo`. -/
inductive Key
  | idx (i : ℤ)
  | slice (lo hi : ℕ)

/-- `Filter.__getitem__` (`filter.py:87-88`), `self._kernels` being a list. -/
def getitem (f : Bank) : Key → Py Bank
  | .idx i =>
    let j : ℤ := if i < 0 then i + f.Nf else i
    if j < 0 then .error .indexError
    else match f.kernels[j.toNat]? with
      | some g => .ok (ofArg (.one g))
      | none => .error .indexError
  | .slice lo hi => .ok (ofArg (.many ((f.kernels.take hi).drop lo)))

/-- `Filter.__add__` (`filter.py:90-94`); the graph is the one of the left operand. -/
def add (f g : Bank) : Bank := ofArg (.many (f.kernels ++ g.kernels))

/-- `Filter.evaluate` (`filter.py:139-144`) at a 1-D array of frequencies: row `i` is `kernel_i(x)`. -/
def evaluate (f : Bank) {k : ℕ} (x : Fin k → ℝ) : Py (Fin f.Nf → Fin k → ℝ) :=
  seqFin f.Nf fun i => f.kernels.get i k x

/-- `np.sum(self.evaluate(x) ** 2, axis=0)` (`filter.py:502, 645-647`). -/
noncomputable def sumSquares (f : Bank) {k : ℕ} (x : Fin k → ℝ) : Py (Fin k → ℝ) :=
  match f.evaluate x with
  | .error e => .error e
  | .ok y => .ok fun j => ∑ i, (y i j) ^ 2

/-- `np.linspace(0, lmax, 1000)`. -/
noncomputable def linspace1000 (lmax : ℝ) : Fin 1000 → ℝ := fun j => j * (lmax / 999)

/-- The bounds computed from the sampled sums (`filter.py:502-504`). -/
noncomputable def boundsAt (f : Bank) {k : ℕ} (x : Fin k → ℝ) : Py (ℝ × ℝ) :=
  match f.sumSquares x with
  | .error e => .error e
  | .ok y =>
    match arrMin y, arrMax y with
    | .ok a, .ok b => .ok (a, b)
    | .error e, _ => .error e
    | _, .error e => .error e

/-- `G.lmax` as a number: `none` (Python's None) makes the arithmetic that follows raise TypeError. -/
noncomputable def lmaxNum (S : Solvers n) (s : GState n) : Py ℝ × GState n :=
  match s.getLmax S with
  | (.error e, s) => (.error e, s)
  | (.ok none, s) => (.error .typeError, s)
  | (.ok (some (.fin l)), s) => (.ok l, s)
  | (.ok (some _), s) => (.error .unmodelled, s)

/-- `Filter.estimate_frame_bounds` (`filter.py:497-504`). -/
noncomputable def estimateFrameBounds (S : Solvers n) (f : Bank) (x : Option (Rows ℝ)) (s : GState n) :
    Py (ℝ × ℝ) × GState n :=
  match x with
  | some x => (f.boundsAt x.row, s)
  | none =>
    match lmaxNum S s with
    | (.error e, s) => (.error e, s)
    | (.ok l, s) => (f.boundsAt (linspace1000 l), s)

/-- The kernel of `Filter.complement` (`filter.py:644-659`). -/
noncomputable def complementKernel (f : Bank) (frameBound : Option ℝ) : Kernel := fun _ x =>
  match f.sumSquares x with
  | .error e => .error e
  | .ok y =>
    match arrMax y with
    | .error e => .error e
    | .ok m =>
      match frameBound with
      | none => .ok fun j => Real.sqrt (m - y j)
      | some b => if b < m then .error .valueError else .ok fun j => Real.sqrt (b - y j)

/-- `Filter.complement` (`filter.py:644-661`). -/
noncomputable def complement (f : Bank) (frameBound : Option ℝ) : Bank := ofArg (.one (f.complementKernel frameBound))

/-- `np.linalg.pinv` of the column vector `y`, a row vector: `y / ‖y‖²`, and `0` for the zero vector. -/
noncomputable def pinvCol {m : ℕ} (y : Fin m → ℝ) : Fin m → ℝ := fun i => y i / ∑ l, y l ^ 2

/-- The `i`-th kernel of `Filter.inverse` (`filter.py:752-755`): the pseudo-inverse is taken frequency by frequency. -/
noncomputable def inverseKernel (f : Bank) (i : Fin f.Nf) : Kernel := fun _ x =>
  match f.evaluate x with
  | .error e => .error e
  | .ok y => .ok fun j => pinvCol (fun l => y l j) i

/-- `Filter.inverse` (`filter.py:739-759`).  The frame bounds are only used for the log messages, but computing them
reads `G.lmax` and may raise. -/
noncomputable def inverse (S : Solvers n) (f : Bank) (s : GState n) : Py Bank × GState n :=
  match f.estimateFrameBounds S none s with
  | (.error e, s) => (.error e, s)
  | (.ok _, s) => (.ok (ofArg (.many (List.ofFn f.inverseKernel))), s)

/-! ### The signal given to `filter` -/

end Bank

/-- A signal as a 3-D array `(n, ns, 1)` (analysis) or `(n, ns, Nf)` (synthesis). -/
inductive Sig (n Nf : ℕ)
  | analysis (ns : ℕ) (x : Fin n → Fin ns → ℝ)
  | synthesis (ns : ℕ) (x : Fin n → Fin ns → Fin Nf → ℝ)

/-- The end of the shape analysis (`filter.py:284-290`): more than 3 dimensions raise ValueError (there are never less
than 3 here), and the number of features says whether this is an analysis or a synthesis. -/
def Arr.toSig (n Nf : ℕ) (a : Arr) : Py (Sig n Nf) :=
  match a.shape with
  | [_, ns, q] =>
    if q = 1 then .ok (.analysis ns fun i j => a.val [i, j, 0])
    else .ok (.synthesis ns fun i j k => a.val [i, j, k])
  | _ => .error .valueError

/-- The condition `s.ndim == 1 or s.shape[-1] not in [1, self.Nf]` (`filter.py:270`). -/
def Arr.needsFeatureDim (Nf : ℕ) (a : Arr) : Bool := a.ndim = 1 ∨ (a.last ≠ 1 ∧ a.last ≠ Nf)

/-- `if s.ndim < 3: s = np.expand_dims(s, 1)` (`filter.py:280-281`). -/
def Arr.withSignalDim (a : Arr) : Arr := if a.ndim < 3 then a.expandDims 1 else a

/-- The beginning of `Filter.filter` (`filter.py:267-290`, with `_check_signal`, `graph.py:632-640`): a 1-D or 2-D
array becomes a 3-D array. -/
def parseSignal (n Nf : ℕ) (a : Arr) : Py (Sig n Nf) :=
  match a.shape with
  | [] => .error .indexError
  | d :: _ =>
    if d ≠ n then .error .valueError
    else if a.needsFeatureDim Nf then
      if a.ndim = 3 then .error .valueError
      else ((a.expandDims a.ndim).withSignalDim).toSig n Nf
    else a.withSignalDim.toSig n Nf

namespace Bank

/-! ### Exact filtering -/

/-- `filter(..., method="exact")`, analysis, from the assertion on (`filter.py:297-301`), `y` being the responses at the eigenvalues: the
assertion fails when the basis is partial. -/
noncomputable def exactAnalysisWith (S : Solvers n) {ns q : ℕ} (b : Basis n) (y : Fin q → Fin b.k → ℝ) (x : Fin n → Fin ns → ℝ)
    (s : GState n) : Py (Fin n → Fin ns → Fin q → ℝ) × GState n :=
  if b.k ≠ n then (.error .assertionError, s)
  else
    match s.gft S (⟨n, fun i j (_ : Fin 1) => x i j⟩ : Rows (Fin ns → Fin 1 → ℝ)) with
    | (.error e, s) => (.error e, s)
    | (.ok xh, s) =>
      if h : xh.len = b.k then
        let z : Rows (Fin ns → Fin q → ℝ) := ⟨xh.len, fun l j i => xh.row l j 0 * y i (l.cast h)⟩
        match s.igft S z with
        | (.error e, s) => (.error e, s)
        | (.ok r, s) => if h : r.len = n then (.ok fun i => r.row (i.cast h.symm), s) else (.error .unmodelled, s)
      else (.error .valueError, s)

/-- `filter(..., method="exact")`, analysis (`filter.py:292-301`). -/
noncomputable def exactAnalysis (S : Solvers n) (f : Bank) {ns : ℕ} (x : Fin n → Fin ns → ℝ) (s : GState n) :
    Py (Fin n → Fin ns → Fin f.Nf → ℝ) × GState n :=
  match s.getBasis S with
  | (.error e, s) => (.error e, s)
  | (.ok none, s) => (.error .typeError, s)
  | (.ok (some b), s) =>
    match f.evaluate b.e with
    | .error e => (.error e, s)
    | .ok y => exactAnalysisWith S b y x s

/-- `filter(..., method="exact")`, synthesis, from the assertion on (`filter.py:297-301`). -/
noncomputable def exactSynthesisWith (S : Solvers n) {ns q : ℕ} (b : Basis n) (y : Fin q → Fin b.k → ℝ)
    (x : Fin n → Fin ns → Fin q → ℝ) (s : GState n) : Py (Fin n → Fin ns → Fin 1 → ℝ) × GState n :=
  if b.k ≠ n then (.error .assertionError, s)
  else
    match s.gft S (⟨n, x⟩ : Rows (Fin ns → Fin q → ℝ)) with
    | (.error e, s) => (.error e, s)
    | (.ok xh, s) =>
      if h : xh.len = b.k then
        let z : Rows (Fin ns → Fin 1 → ℝ) := ⟨xh.len, fun l j _ => ∑ i, xh.row l j i * y i (l.cast h)⟩
        match s.igft S z with
        | (.error e, s) => (.error e, s)
        | (.ok r, s) => if h : r.len = n then (.ok fun i => r.row (i.cast h.symm), s) else (.error .unmodelled, s)
      else (.error .valueError, s)

/-- `filter(..., method="exact")`, synthesis (`filter.py:292-301`). -/
noncomputable def exactSynthesis (S : Solvers n) (f : Bank) {ns : ℕ} (x : Fin n → Fin ns → Fin f.Nf → ℝ)
    (s : GState n) : Py (Fin n → Fin ns → Fin 1 → ℝ) × GState n :=
  match s.getBasis S with
  | (.error e, s) => (.error e, s)
  | (.ok none, s) => (.error .typeError, s)
  | (.ok (some b), s) =>
    match f.evaluate b.e with
    | .error e => (.error e, s)
    | .ok y => exactSynthesisWith S b y x s

end Bank

/-! ### Chebyshev approximation -/

/-- The abscissae at which the kernel is sampled (`approximations.py:42-52`): `a1 * num + a2`. -/
noncomputable def chebNode (lmax : ℝ) (N : ℕ) (j : Fin N) : ℝ :=
  lmax / 2 * Real.cos (Real.pi * (j + 1 / 2) / N) + lmax / 2

/-- The coefficients of one kernel (`approximations.py:47-55`), with `N` quadrature points. -/
noncomputable def chebCoeff1 (g : Kernel) (lmax : ℝ) (m N : ℕ) : Py (Fin (m + 1) → ℝ) :=
  match g N (chebNode lmax N) with
  | .error e => .error e
  | .ok y => .ok fun o => 2 / N * ∑ j, y j * Real.cos (Real.pi * o * (j + 1 / 2) / N)

/-- `compute_cheby_coeff` (`approximations.py:9-55`) through `filterbank_handler` (`utils.py:37-53`).
`N = None` or `0` means `m + 1`.  `G.lmax` is read once per kernel, always with the same result.  A bank without
kernels raises IndexError (`f._kernels[0]`).  The result is always presented as a 2-D array (`np.atleast_2d`). -/
noncomputable def chebCoeffs (S : Solvers n) (f : Bank) (m : ℕ) (N : Option ℕ) (s : GState n) :
    Py (Fin f.Nf → Fin (m + 1) → ℝ) × GState n :=
  let N := if N.getD 0 = 0 then m + 1 else N.getD 0
  match Bank.lmaxNum S s with
  | (.error e, s) => (.error e, s)
  | (.ok l, s) =>
    if f.Nf = 0 then (.error .indexError, s)
    else (seqFin f.Nf fun i => chebCoeff1 (f.kernels.get i) l m N, s)

/-- The variables of the loop of `cheby_op`: `twf_old`, `twf_cur`, `r` (block `i` of `r` is the rows
`tmpN + G.N * i`). -/
structure ChebState (n ns q : ℕ) where
  old : Matrix (Fin n) (Fin ns) ℝ
  cur : Matrix (Fin n) (Fin ns) ℝ
  r : Fin q → Matrix (Fin n) (Fin ns) ℝ

/-- One iteration of the loop of `cheby_op` (`approximations.py:106-112`), for degree `k`. -/
noncomputable def chebStep {ns q : ℕ} (factor : Matrix (Fin n) (Fin n) ℝ) (c : Fin q → ℕ → ℝ)
    (st : ChebState n ns q) (k : ℕ) : ChebState n ns q :=
  let new := factor * st.cur - st.old
  { old := st.cur, cur := new, r := fun i => st.r i + c i k • new }

/-- The arithmetic of `cheby_op` (`approximations.py:93-114`) for `M` coefficients per filter (`M >= 2`). -/
noncomputable def chebLoop {ns q : ℕ} (L : Matrix (Fin n) (Fin n) ℝ) (lmax : ℝ) (M : ℕ) (c : Fin q → ℕ → ℝ)
    (X : Matrix (Fin n) (Fin ns) ℝ) : ChebState n ns q :=
  let a1 := (lmax - 0) / 2
  let a2 := (lmax + 0) / 2
  let cur := (1 / a1) • (L * X - a2 • X)
  let factor := (2 / a1) • (L - a2 • (1 : Matrix (Fin n) (Fin n) ℝ))
  (List.range' 2 (M - 2)).foldl (chebStep factor c)
    { old := X, cur := cur, r := fun i => ((1 / 2) * c i 0) • X + c i 1 • cur }

/-- `cheby_op` (`approximations.py:58-114`) on a 2-D signal.  `2 / a1` is a division of Python floats: it raises
ZeroDivisionError when `lmax = 0`. -/
noncomputable def chebyOp (S : Solvers n) {ns q M : ℕ} (c : Fin q → Fin M → ℝ) (X : Matrix (Fin n) (Fin ns) ℝ)
    (s : GState n) : Py (Matrix (Fin (q * n)) (Fin ns) ℝ) × GState n :=
  if M < 2 then (.error .typeError, s)
  else
    match Bank.lmaxNum S s with
    | (.error e, s) => (.error e, s)
    | (.ok l, s) =>
      if l / 2 = 0 then (.error .zeroDivisionError, s)
      else
        let c' : Fin q → ℕ → ℝ := fun i k => if h : k < M then c i ⟨k, h⟩ else 0
        let r := (chebLoop s.L l M c' X).r
        (.ok (Matrix.of fun row j => r (finProdFinEquiv.symm row).1 (finProdFinEquiv.symm row).2 j), s)

namespace Bank

/-- `filter(..., method="chebyshev")`, analysis, once the coefficients are known (`filter.py:307-311`).
`reshape((N, Nf, ns), order="F")` reads row `v + N * i`. -/
noncomputable def chebAnalysisWith (S : Solvers n) {q M : ℕ} (c : Fin q → Fin M → ℝ) {ns : ℕ} (x : Fin n → Fin ns → ℝ)
    (s : GState n) : Py (Fin n → Fin ns → Fin q → ℝ) × GState n :=
  match chebyOp S c (Matrix.of x) s with
  | (.error e, s) => (.error e, s)
  | (.ok r, s) => (.ok fun v j i => r (finProdFinEquiv (i, v)) j, s)

/-- `filter(..., method="chebyshev")`, analysis (`filter.py:303-311`). -/
noncomputable def chebAnalysis (S : Solvers n) (f : Bank) (order : ℕ) {ns : ℕ} (x : Fin n → Fin ns → ℝ)
    (s : GState n) : Py (Fin n → Fin ns → Fin f.Nf → ℝ) × GState n :=
  match chebCoeffs S f order none s with
  | (.error e, s) => (.error e, s)
  | (.ok c, s) => chebAnalysisWith S c x s

/-- The accumulation loop of the synthesis (`filter.py:318-321`): `s += cheby_op(G, c[i], s_in[i * N + tmpN])`. -/
noncomputable def chebSynthLoop (S : Solvers n) {q ns M : ℕ} (c : Fin q → Fin M → ℝ) (x : Fin n → Fin ns → Fin q → ℝ) :
    List (Fin q) → Matrix (Fin n) (Fin ns) ℝ → GState n → Py (Matrix (Fin n) (Fin ns) ℝ) × GState n
  | [], acc, s => (.ok acc, s)
  | i :: is, acc, s =>
    match chebyOp S (fun (_ : Fin 1) => c i) (Matrix.of fun v j => x v j i) s with
    | (.error e, s) => (.error e, s)
    | (.ok r, s) => chebSynthLoop S c x is (acc + Matrix.of fun v j => r (finProdFinEquiv (0, v)) j) s

/-- `filter(..., method="chebyshev")`, synthesis, once the coefficients are known (`filter.py:313-322`). -/
noncomputable def chebSynthesisWith (S : Solvers n) {q M : ℕ} (c : Fin q → Fin M → ℝ) {ns : ℕ}
    (x : Fin n → Fin ns → Fin q → ℝ) (s : GState n) : Py (Fin n → Fin ns → Fin 1 → ℝ) × GState n :=
  match chebSynthLoop S c x (List.finRange q) 0 s with
  | (.error e, s) => (.error e, s)
  | (.ok r, s) => (.ok fun v j _ => r v j, s)

/-- `filter(..., method="chebyshev")`, synthesis (`filter.py:303-305, 313-322`). -/
noncomputable def chebSynthesis (S : Solvers n) (f : Bank) (order : ℕ) {ns : ℕ} (x : Fin n → Fin ns → Fin f.Nf → ℝ)
    (s : GState n) : Py (Fin n → Fin ns → Fin 1 → ℝ) × GState n :=
  match chebCoeffs S f order none s with
  | (.error e, s) => (.error e, s)
  | (.ok c, s) => chebSynthesisWith S c x s

end Bank

/-- The `method` argument of `filter`. -/
inductive FMethod
  | exact | chebyshev
  | other (name : String)
  deriving DecidableEq, Repr

/-- `return s.squeeze()` (`filter.py:328`). -/
def squeezeResult {m p q : ℕ} : Py (Fin m → Fin p → Fin q → ℝ) × GState n → Py Arr × GState n
  | (.error e, s) => (.error e, s)
  | (.ok y, s) => (.ok (Arr.of3 y).squeeze, s)

namespace Bank

/-- `Filter.filter` (`filter.py:146, 267-328`), and `f @ s` (`filter.py:102-103`) with the default arguments. -/
noncomputable def filter (S : Solvers n) (f : Bank) (a : Arr) (method : FMethod) (order : ℕ) (s : GState n) :
    Py Arr × GState n :=
  match parseSignal n f.Nf a with
  | .error e => (.error e, s)
  | .ok (.analysis _ x) =>
    match method with
    | .exact => squeezeResult (f.exactAnalysis S x s)
    | .chebyshev => squeezeResult (f.chebAnalysis S order x s)
    | .other _ => (.error .valueError, s)
  | .ok (.synthesis _ x) =>
    match method with
    | .exact => squeezeResult (f.exactSynthesis S x s)
    | .chebyshev => squeezeResult (f.chebSynthesis S order x s)
    | .other _ => (.error .valueError, s)

/-- `Filter.analyze` (`filter.py:330-336`). -/
noncomputable def analyze (S : Solvers n) (f : Bank) (a : Arr) (method : FMethod) (order : ℕ) (s : GState n) :
    Py Arr × GState n :=
  if a.ndim = 3 ∧ a.last ≠ 1 then (.error .valueError, s) else f.filter S a method order s

/-- `Filter.synthesize` (`filter.py:338-348`). -/
noncomputable def synthesize (S : Solvers n) (f : Bank) (a : Arr) (method : FMethod) (order : ℕ) (s : GState n) :
    Py Arr × GState n :=
  if a.ndim = 0 then (.error .indexError, s)
  else if a.last ≠ f.Nf then (.error .valueError, s) else f.filter S a method order s

/-- `Filter.localize` (`filter.py:389-391`) at a vertex of the graph. -/
noncomputable def localize (S : Solvers n) (f : Bank) (i : Fin n) (method : FMethod) (order : ℕ) (s : GState n) :
    Py Arr × GState n :=
  match f.filter S (Arr.of1 fun j => if j = i then 1 else 0) method order s with
  | (.error e, s) => (.error e, s)
  | (.ok a, s) => (.ok (a.smul (Real.sqrt n)), s)

/-- `Filter.compute_frame` (`filter.py:593-600`). -/
noncomputable def computeFrame (S : Solvers n) (f : Bank) (method : FMethod) (order : ℕ) (s : GState n) :
    Py Arr × GState n :=
  match f.filter S (Arr.of2 fun i j : Fin n => if i = j then 1 else 0) method order s with
  | (.error e, s) => (.error e, s)
  | (.ok a, s) => (a.transpose.reshapeRows n, s)

end Bank

end PyGSP
