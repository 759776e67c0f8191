import Verif.Model.Sparsify

/-!
# `pygsp/reduction.py`: `graph_multiresolution`

The solvers and random generators are parameters, one for every size.
-/

namespace PyGSP

open Matrix

variable {n : ℕ}

namespace Reduction

/-- The external functions used for graphs of every size: the eigensolvers of the graph, `scipy.sparse.linalg.eigs(L, 1)`
(the eigenvector, `none` when ARPACK does not converge), `np.linalg.pinv`, the order of `set.pop`, the random numbers of the
sparsification at every level. -/
structure Env where
  S : (n : ℕ) → Solvers n
  eigs : (n : ℕ) → ℕ → Matrix (Fin n) (Fin n) ℝ → Option (Fin n → ℝ)
  pinv : (n : ℕ) → Matrix (Fin n) (Fin n) ℝ → Matrix (Fin n) (Fin n) ℝ
  pop : (n : ℕ) → Pop n
  draws : (level : ℕ) → ℕ → ℕ → List ℕ

/-- A graph of the list `Gs` with the entries `idx` and `orig_idx` of its attribute `mr`. -/
structure Node (R : Type) where
  n : ℕ
  st : GState n
  coords : Coords n R
  idx : Fin n → ℕ
  orig : Fin n → ℕ

/-- `np.sign` -/
noncomputable def npSign (x : ℝ) : ℝ := if 0 < x then 1 else if x < 0 then -1 else 0

/-- `V = Gs[i].U[:, -1]` or `V = linalg.eigs(Gs[i].L, 1)[1][:, 0]`, then `V *= np.sign(V[0])` (`reduction.py:272-277`).  In the
first case `V` is a view: the last column of the cached basis is multiplied in place.  Simplifications: the vector returned by
`eigs` is real; `eigs` refuses a matrix with at most two rows (TypeError). -/
noncomputable def polarity (E : Env) (s : GState n) : Py (Fin n → ℝ) × GState n :=
  if hn : 0 < n then
    match s.basis with
    | some b =>
      if hb : 0 < b.k then
        let c : Fin b.k := ⟨b.k - 1, by omega⟩
        let U : Matrix (Fin n) (Fin b.k) ℝ := Matrix.of fun i j => if j = c then b.U i j * npSign (b.U ⟨0, hn⟩ c) else b.U i j
        (.ok fun i => U i c, { s with basis := some ⟨b.k, b.e, U⟩ })
      else (.error .indexError, s)
    | none =>
      if n ≤ 2 then (.error .typeError, s)
      else
        match E.eigs n s.calls s.L with
        | none => (.error .arpackNoConvergence, { s with calls := s.calls + 1 })
        | some v => (.ok fun i => v i * npSign (v ⟨0, hn⟩), { s with calls := s.calls + 1 })
  else (.error .indexError, s)

/-- `ind = np.nonzero(V >= 0)[0]` (`reduction.py:278`). -/
noncomputable def positives (V : Fin n → ℝ) : List (Fin n) := open Classical in (List.finRange n).filter fun i => 0 ≤ V i

/-- The options of `graph_multiresolution`; the two flags tell whether the strings `downsampling_method` and
`reduction_method` are the known ones. -/
structure MrOptions where
  sparsify : Bool := true
  sparsifyEps : Option ℝ := none
  knownDownsampling : Bool := true
  knownReduction : Bool := true
  fullEigen : Bool := false
  regEps : ℝ := 1 / 200

/-- `Gs[i + 1] = graph_sparsify(Gs[i + 1], min(max(sparsify_eps, 2 / sqrt(N)), 1))` when it is requested and there are more
than two vertices (`reduction.py:289-292`). -/
noncomputable def sparsifyLevel {R : Type} (E : Env) (sparsify : Bool) (eps : ℝ) (level : ℕ) {k : ℕ} (g : Graph k ℝ)
    (c : Coords k R) : Py (Graph k ℝ × Coords k R) :=
  if sparsify = true ∧ 2 < k then
    match graphSparsify (E.pop k) (E.pinv k) (E.draws level) (min (max eps (2 / Real.sqrt k)) 1) 10 (GState.ofGraph g) with
    | .error e => .error e
    | .ok g' => .ok (g', .missing)
  else .ok (g, c)

/-- `compute_fourier_basis()` or `estimate_lmax()` (`reduction.py:262-265, 295-298`). -/
noncomputable def prepare (E : Env) (full : Bool) (s : GState n) : Py Unit × GState n :=
  if full then s.computeFourierBasis (E.S n) none else s.estimateLmax (E.S n) .lanczos

/-- One pass of the loop (`reduction.py:270-304`): the next graph, and the current graph as it is left. -/
noncomputable def mrStep {R : Type} (E : Env) (o : MrOptions) (eps : ℝ) (level : ℕ) (g : Node R) : Py (Node R) × Node R :=
  if o.knownDownsampling = false then (.error .notImplementedError, g)
  else
    match polarity E g.st with
    | (.error e, s) => (.error e, { g with st := s })
    | (.ok V, s) =>
      let g : Node R := { g with st := s }
      let l := positives V
      let ind : Fin l.length → Fin g.n := l.get
      if o.knownReduction = false then (.error .notImplementedError, g)
      else
        match kronGraph s g.coords ind with
        | .error e => (.error e, g)
        | .ok (gr, c) =>
          match sparsifyLevel E o.sparsify eps level gr c with
          | .error e => (.error e, g)
          | .ok (gr, c) =>
            match prepare E o.fullEigen (GState.ofGraph gr) with
            | (.error e, _) => (.error e, g)
            | (.ok (), st) =>
              match kronMatrix (s.L + o.regEps • (1 : Matrix (Fin g.n) (Fin g.n) ℝ)) ind with
              | .error e => (.error e, g)
              | .ok _ => (.ok ⟨l.length, st, c, fun a => (ind a).1, fun a => g.orig (ind a)⟩, g)

/-- The loop; the list of graphs so far and the exception, if any. -/
noncomputable def mrLoop {R : Type} (E : Env) (o : MrOptions) (eps : ℝ) : ℕ → ℕ → Node R → List (Node R) × Option PyErr
  | 0, _, g => ([g], none)
  | levels + 1, i, g =>
    match mrStep E o eps i g with
    | (.error e, g) => ([g], some e)
    | (.ok g', g) => (g :: (mrLoop E o eps levels (i + 1) g').1, (mrLoop E o eps levels (i + 1) g').2)

/-- `graph_multiresolution(G, levels, ...)` (`reduction.py:196-306`). -/
noncomputable def graphMultiresolution {R : Type} (E : Env) (o : MrOptions) (levels : ℕ) (s : GState n) (coords : Coords n R) :
    List (Node R) × Option PyErr :=
  let eps := o.sparsifyEps.getD (min (10 / Real.sqrt n) (3 / 10))
  match prepare E o.fullEigen s with
  | (.error e, s) => ([⟨n, s, coords, fun i => i.1, fun i => i.1⟩], some e)
  | (.ok (), s) => mrLoop E o eps levels 0 ⟨n, s, coords, fun i => i.1, fun i => i.1⟩

end Reduction

end PyGSP
