import Verif.Model.Laplacian

/-!
# The mutable `Graph` object: lazily computed attributes and their invalidation

`pygsp/graphs/graph.py`, `pygsp/graphs/fourier.py`, `pygsp/graphs/difference.py`.  Every attribute that the
methods assign is a field of the state; a method is a function from states to a result and a new state, and a
method that raises returns the state it had reached when raising.
-/

namespace PyGSP

open Matrix

variable {n : ℕ}

/-- The value of `_lmax_method`; `other` is any unknown string given to `estimate_lmax`. -/
inductive LmaxMethod
  | lanczos | bounds | fourier
  | other (name : String)
  deriving DecidableEq, Repr

/-- A (partial) Fourier basis: the arrays `_e` (length `k`) and `_U` (shape `n × k`). -/
structure Basis (n : ℕ) where
  k : ℕ
  e : Fin k → ℝ
  U : Matrix (Fin n) (Fin k) ℝ

/-- The eigensolvers.  The number is the count of solver calls made so far: ARPACK starts from a random vector,
two calls on the same matrix may answer differently.
* `eigh`: `scipy.linalg.eigh` (`fourier.py:172`);
* `eigshSM k`: `sparse.linalg.eigsh(L, k, which='SM')` (`fourier.py:175`), `none` when ARPACK does not converge;
* `eigshLM`: `sparse.linalg.eigsh(L, k=1)` (`graph.py:911-917`), `none` when ARPACK does not converge. -/
structure Solvers (n : ℕ) where
  eigh : ℕ → Matrix (Fin n) (Fin n) ℝ → (Fin n → ℝ) × Matrix (Fin n) (Fin n) ℝ
  eigshSM : (k : ℕ) → ℕ → Matrix (Fin n) (Fin n) ℝ → Option ((Fin k → ℝ) × Matrix (Fin n) (Fin k) ℝ)
  eigshLM : ℕ → Matrix (Fin n) (Fin n) ℝ → Option ℝ

/-- The attributes of a `Graph` object (`graph.py:126-171`).  `W`, `nEdges` are in `base`. -/
structure GState (n : ℕ) where
  base : Graph n ℝ
  directed : Option Bool
  connected : Option Bool
  adj : Option (Fin n → Fin n → Bool)
  d : Option (Fin n → ℝ)
  dw : Option (Fin n → ℝ)
  lapType : LapType
  L : Matrix (Fin n) (Fin n) ℝ
  lmax : Option (PyNum ℝ)
  lmaxMethod : Option LmaxMethod
  basis : Option (Basis n)
  coherence : Option ℝ
  D : Option (Σ m, Sp n m ℝ)
  calls : ℕ

namespace GState

/-- `G.W`. -/
abbrev W (s : GState n) : Sp n n ℝ := s.base.W

/-! ### Reading the structure -/

/-- `Graph.is_directed` (`graph.py:403-405`). -/
noncomputable def isDirected (s : GState n) : Bool × GState n :=
  match s.directed with
  | some b => (b, s)
  | none => let b := PyGSP.isDirected s.W; (b, { s with directed := some b })

/-- `Graph.dw` (`graph.py:830-838`). -/
noncomputable def getDw (s : GState n) : (Fin n → ℝ) × GState n :=
  match s.dw with
  | some v => (v, s)
  | none =>
    let (dir, s) := s.isDirected
    let v := fun i => if dir then ((∑ j, s.W.dense j i) + ∑ j, s.W.dense i j) / 2 else ∑ j, s.W.dense j i
    (v, { s with dw := some v })

/-- `Graph.d` (`graph.py:772-781`). -/
noncomputable def getD (s : GState n) : (Fin n → ℝ) × GState n :=
  match s.d with
  | some v => (v, s)
  | none =>
    let (dir, s) := s.isDirected
    let v : Fin n → ℝ := fun i =>
      if dir then ((s.W.colNnz i : ℝ) + (s.W.rowNnz i : ℝ)) / 2 else (s.W.rowNnz i : ℝ)
    (v, { s with d := some v })

/-- `Graph.A` (`graph.py:725-727`). -/
noncomputable def getA (s : GState n) : (Fin n → Fin n → Bool) × GState n :=
  match s.adj with
  | some v => (v, s)
  | none => let v := posAdj s.W; (v, { s with adj := some v })

/-- `Graph.is_connected` (`graph.py:340-366`). -/
noncomputable def isConnected (pop : Pop n) (s : GState n) : Py Bool × GState n :=
  match s.connected with
  | some b => (.ok b, s)
  | none =>
    let (dir, s) := s.isDirected
    let adjacencies := if dir then [s.W, s.W.transpose] else [s.W]
    if h : 0 < n then
      let b := adjacencies.all fun adj => visitLoop (nbSet adj) pop 0 ∅ {⟨0, h⟩} = Finset.univ
      (.ok b, { s with connected := some b })
    else (.error .indexError, s)

/-- `Graph.get_edge_list` (`graph.py:1019-1029`). -/
noncomputable def getEdgeList (s : GState n) : Py (List (Fin n × Fin n × ℝ)) × GState n :=
  let (dir, s) := s.isDirected
  let W := if dir then s.W else s.W.triu
  (if s.base.nEdges = W.entries.length then .ok W.entries else .error .assertionError, s)

/-! ### Laplacian, bounds -/

/-- `Graph.compute_laplacian` (`graph.py:602-630`). -/
noncomputable def computeLaplacian (lt : LapType) (s : GState n) : Py Unit × GState n :=
  let s := if lt ≠ s.lapType then
      { s with lmax := none, basis := none, coherence := none, D := none } else s
  let s := { s with lapType := lt }
  let (dir, s) := s.isDirected
  let Wl := if dir then symAverage s.W.dense else s.W.dense
  match lt with
  | .combinatorial =>
    let (dw, s) := s.getDw
    (.ok (), { s with L := Matrix.diagonal dw - Wl })
  | .normalized =>
    let (dw, s) := s.getDw
    let D := Matrix.diagonal fun i => if dw i = 0 then 0 else (dw i) ^ (-(1 / 2) : ℝ)
    let L := 1 - D * Wl * D
    (.ok (), { s with L := Matrix.of fun i j => if i = j ∧ dw i = 0 then 0 else L i j })
  | .other _ => (.error .valueError, s)

/-- The bound added when there are edges (`graph.py:947-949`). -/
noncomputable def edgeBounds (dw : Fin n → ℝ) (s : GState n) : Py (List (PyNum ℝ)) × GState n :=
  if s.base.nEdges > 0 then
    let (es, s) := s.getEdgeList
    match es with
    | .error e => (.error e, s)
    | .ok es =>
      match npMax (es.map fun e => PyNum.fin (dw e.1 + dw e.2.1)) with
      | .error e => (.error e, s)
      | .ok b => (.ok [b], s)
  else (.ok [], s)

/-- `Graph._get_upper_bound` (`graph.py:933-960`), reading `dw`, `is_directed()` and the edge list through the
caches. -/
noncomputable def upperBound (s : GState n) : Py (PyNum ℝ) × GState n :=
  match s.lapType with
  | .normalized => (.ok (.fin 2), s)
  | .combinatorial =>
    let V := List.finRange n
    match npMax (V.flatMap fun i => V.map fun j => PyNum.fin (s.W.dense i j)) with
    | .error e => (.error e, s)
    | .ok wmax =>
      let b1 : PyNum ℝ := match wmax with
        | .fin w => .fin (n * w)
        | x => x
      let (dw, s) := s.getDw
      match npMax (V.map fun i => PyNum.fin (dw i)) with
      | .error e => (.error e, s)
      | .ok dmax =>
        let b2 : PyNum ℝ := match dmax with
          | .fin w => .fin (2 * w)
          | x => x
        let (b3, s) := s.edgeBounds dw
        match b3 with
        | .error e => (.error e, s)
        | .ok b3 =>
          let (dir, s) := s.isDirected
          let Wl := if dir then symAverage s.W.dense else s.W.dense
          match npMax (V.map fun i => PyNum.fin (dw i) + npDiv (∑ j, Wl i j * dw j) (dw i)) with
          | .error e => (.error e, s)
          | .ok b4 => (pyMin ([b1] ++ [b2] ++ b3 ++ [b4]), s)
  | .other _ => (.error .valueError, s)

/-- `Graph.estimate_lmax` (`graph.py:903-931`).  `1e-12` is the tolerance of the assertion.  `eigsh` raises
TypeError when `k = 1 >= N`. -/
noncomputable def estimateLmax (S : Solvers n) (method : LmaxMethod) (s : GState n) : Py Unit × GState n :=
  if s.lmaxMethod = some method then (.ok (), s)
  else
    let s := { s with lmaxMethod := some method }
    match method with
    | .lanczos =>
      if n ≤ 1 then (.error .typeError, s) else
      let r := S.eigshLM s.calls s.L
      let s := { s with calls := s.calls + 1 }
      match r with
      | none => (.error .valueError, s)
      | some lmax =>
        let (ub, s) := s.upperBound
        match ub with
        | .error e => (.error e, s)
        | .ok ub =>
          if PyNum.le (.fin lmax) (ub + .fin (1 / 10 ^ 12)) then
            (.ok (), { s with lmax := some (.fin (lmax * (101 / 100))) })
          else (.error .assertionError, s)
    | .bounds =>
      let (ub, s) := s.upperBound
      match ub with
      | .error e => (.error e, s)
      | .ok ub => (.ok (), { s with lmax := some ub })
    | _ => (.error .valueError, s)

/-- `Graph.lmax` (`graph.py:848-856`).  `none` is Python's `None`. -/
noncomputable def getLmax (S : Solvers n) (s : GState n) : Py (Option (PyNum ℝ)) × GState n :=
  match s.lmax with
  | some v => (.ok (some v), s)
  | none =>
    let (r, s) := s.estimateLmax S .lanczos
    match r with
    | .error e => (.error e, s)
    | .ok () => (.ok s.lmax, s)

/-! ### Fourier basis -/

/-- The eigendecomposition step of `compute_fourier_basis` (`fourier.py:171-175`).  `eigsh` refuses `k <= 0`
(ValueError) and, for a sparse matrix, `k >= N` (TypeError). -/
noncomputable def decompose (S : Solvers n) (ne : ℕ) (s : GState n) : Py (Basis n) :=
  if ne = n then .ok ⟨n, (S.eigh s.calls s.L).1, (S.eigh s.calls s.L).2⟩
  else if ne = 0 then .error .valueError
  else if ne > n then .error .typeError
  else match S.eigshSM ne s.calls s.L with
    | none => .error .arpackNoConvergence
    | some r => .ok ⟨ne, r.1, r.2⟩

/-- The checks and corrections made on the arrays (`fourier.py:181-195`), for a basis that has at least one column
(otherwise `self._e[0]` raises IndexError).  The sign correction is guarded by `np.abs(self._U[0, 0]).sum() < 0`,
which is never true. -/
noncomputable def checkBasis (ne : ℕ) (b : Basis n) (hk : 0 < b.k) (s : GState n) : Py Unit × GState n :=
  let last : Fin b.k := ⟨b.k - 1, by omega⟩
  if -(1 / 10 ^ 5) < b.e ⟨0, hk⟩ ∧ b.e ⟨0, hk⟩ < 1 / 10 ^ 5 then
    let e := Function.update b.e ⟨0, hk⟩ 0                                    -- self._e[0] = 0
    let U : Matrix (Fin n) (Fin b.k) ℝ := Matrix.of fun i j =>
      if ∃ h : 0 < n, |b.U ⟨0, h⟩ ⟨0, hk⟩| < 0 ∧ i = ⟨0, h⟩ then -b.U i j else b.U i j
    let s := { s with basis := some ⟨b.k, e, U⟩ }
    let (ub, s) := s.upperBound
    match ub with
    | .error err => (.error err, s)
    | .ok ub =>
      if PyNum.le (.fin (e last)) (ub + .fin (1 / 10 ^ 5)) then
        if ∀ i, e i ≤ e last then
          if ne = n then
            match npMax ((List.finRange n).flatMap fun i => (List.finRange b.k).map fun j => PyNum.fin |U i j|) with
            | .ok (.fin c) =>
              (.ok (), { s with lmax := some (.fin (e last)), lmaxMethod := some .fourier, coherence := some c })
            | _ => (.error .valueError, s)
          else (.ok (), s)
        else (.error .assertionError, s)
      else (.error .assertionError, s)
  else (.error .assertionError, s)

/-- `self._U is not None and n_eigenvectors <= len(self._e)` (`fourier.py:156`). -/
def hasBasis (s : GState n) (ne : ℕ) : Bool :=
  match s.basis with
  | some b => decide (ne ≤ b.k)
  | none => false

/-- `FourierMixIn.compute_fourier_basis` (`fourier.py:153-195`). -/
noncomputable def computeFourierBasis (S : Solvers n) (nEigenvectors : Option ℕ) (s : GState n) :
    Py Unit × GState n :=
  let ne := nEigenvectors.getD n
  if s.hasBasis ne then (.ok (), s)
  else
    match s.decompose S ne with
    | .error e => (.error e, { s with calls := s.calls + 1 })
    | .ok b =>
      let s := { s with basis := some b, calls := s.calls + 1 }                -- self._e, self._U = ...
      if hk : 0 < b.k then s.checkBasis ne b hk
      else (.error .indexError, s)

/-- `FourierMixIn._check_fourier_properties` for `U` and `e` (`fourier.py:10-19`).  After a successful
`compute_fourier_basis()` the attribute is set. -/
noncomputable def getBasis (S : Solvers n) (s : GState n) : Py (Option (Basis n)) × GState n :=
  match s.basis with
  | some b => (.ok (some b), s)
  | none =>
    let (r, s) := s.computeFourierBasis S none
    match r with
    | .error e => (.error e, s)
    | .ok () => (.ok s.basis, s)

/-- `FourierMixIn.coherence` (`fourier.py:10-19, 95`). -/
noncomputable def getCoherence (S : Solvers n) (s : GState n) : Py (Option ℝ) × GState n :=
  match s.coherence with
  | some b => (.ok (some b), s)
  | none =>
    let (r, s) := s.computeFourierBasis S none
    match r with
    | .error e => (.error e, s)
    | .ok () => (.ok s.coherence, s)

/-! ### Differential operator -/

/-- The two values stored for an edge (`difference.py:151-161`). -/
noncomputable def diffValuesWith (dir : Bool) (dw : Fin n → ℝ) (lt : LapType) (e : Fin n × Fin n × ℝ) : ℝ × ℝ :=
  let v : ℝ × ℝ := match lt with
    | .combinatorial => (-Real.sqrt e.2.2, -(-Real.sqrt e.2.2))
    | .normalized => (-Real.sqrt (e.2.2 / dw e.1), Real.sqrt (e.2.2 / dw e.2.1))
    | .other _ => (0, 0)
  if dir then (v.1 / Real.sqrt 2, v.2 / Real.sqrt 2) else v

/-- `DifferenceMixIn.compute_differential_operator` (`difference.py:144-166`). -/
noncomputable def computeDiff (s : GState n) : Py Unit × GState n :=
  let (es, s) := s.getEdgeList
  match es with
  | .error e => (.error e, s)
  | .ok es =>
    match s.lapType with
    | .other _ => (.error .valueError, s)
    | lt =>
      let (dw, s) := match lt with
        | .normalized => s.getDw
        | _ => (fun _ => 0, s)
      let (dir, s) := s.isDirected
      let v := diffValuesWith dir dw lt
      let D : Sp n es.length ℝ := Sp.eliminateZeros (Sp.sumDuplicates
        ⟨((List.finRange es.length).map fun k => ((es.get k).1, k, (v (es.get k)).1)) ++
         ((List.finRange es.length).map fun k => ((es.get k).2.1, k, (v (es.get k)).2))⟩)
      (.ok (), { s with D := some ⟨es.length, D⟩ })

/-- `DifferenceMixIn.D` (`difference.py:11-24`). -/
noncomputable def getDiff (s : GState n) : Py (Option (Σ m, Sp n m ℝ)) × GState n :=
  match s.D with
  | some D => (.ok (some D), s)
  | none =>
    let (r, s) := s.computeDiff
    match r with
    | .error e => (.error e, s)
    | .ok () => (.ok s.D, s)

/-- `G.W = value` (`graph.py:709-715`). -/
def setW (_ : Sp n n ℝ) (s : GState n) : Py Unit × GState n := (.error .attributeError, s)

/-- The object returned by the constructor (`graph.py:126-171`): `is_directed()` has been evaluated (for `n_edges`),
the lazily computed attributes are None, and `compute_laplacian(lap_type)` has been called with
`self.lap_type = lap_type`. -/
noncomputable def ofGraph (g : Graph n ℝ) : GState n :=
  (computeLaplacian g.lapType
    { base := g, directed := some (PyGSP.isDirected g.W), connected := none, adj := none, d := none, dw := none,
      lapType := g.lapType, L := 0, lmax := none, lmaxMethod := none, basis := none, coherence := none, D := none,
      calls := 0 }).2

end GState

/-- The operations a user can apply to a `Graph` object (those that read or write the attributes of `GState`).
`isConnected` carries the order in which its sets are popped. -/
inductive Op (n : ℕ)
  | isDirected
  | isConnected (pop : Pop n)
  | getA | getD | getDw | getEdgeList
  | computeLaplacian (lt : LapType)
  | estimateLmax (method : LmaxMethod)
  | getLmax
  | computeFourierBasis (k : Option ℕ)
  | getBasis | getCoherence
  | computeDiff | getDiff
  | setW (M : Sp n n ℝ)

/-- The state after an operation, and whether it raised. -/
noncomputable def Op.run (S : Solvers n) (op : Op n) (s : GState n) : Py Unit × GState n :=
  let drop {α : Type} (r : Py α × GState n) : Py Unit × GState n :=
    (match r.1 with | .ok _ => .ok () | .error e => .error e, r.2)
  match op with
  | .isDirected => (.ok (), s.isDirected.2)
  | .isConnected pop => drop (s.isConnected pop)
  | .getA => (.ok (), s.getA.2)
  | .getD => (.ok (), s.getD.2)
  | .getDw => (.ok (), s.getDw.2)
  | .getEdgeList => drop s.getEdgeList
  | .computeLaplacian lt => s.computeLaplacian lt
  | .estimateLmax m => s.estimateLmax S m
  | .getLmax => drop (s.getLmax S)
  | .computeFourierBasis k => s.computeFourierBasis S k
  | .getBasis => drop (s.getBasis S)
  | .getCoherence => drop (s.getCoherence S)
  | .computeDiff => s.computeDiff
  | .getDiff => drop s.getDiff
  | .setW M => s.setW M

/-- The state after a history of operations (exceptions are caught by the caller, the object lives on). -/
noncomputable def runAll (S : Solvers n) (ops : List (Op n)) (s : GState n) : GState n :=
  ops.foldl (fun s op => (op.run S s).2) s

end PyGSP
