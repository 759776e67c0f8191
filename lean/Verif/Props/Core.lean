import Verif.Lemmas.Traversal
import Verif.Lemmas.Subgraph

/-!
# Properties C01-C09, C16: construction and structure of a graph

`g.Built` says that `g` is the object returned by `Graph(adjacency, lap_type)` for some input (dense
or sparse, stored in any way).
-/

namespace PyGSP

open Spec

variable {n : ℕ} {K : Type*}

/-! ## C01 -/

/-- The constructor succeeds exactly on two-dimensional square inputs without NaN or infinite value
(and a known Laplacian type). -/
theorem C01_constructor_accepts_iff [Field K] [LinearOrder K] (a : AdjInput K) (lt : LapType) :
    (∃ r, Graph.init a lt = .ok r) ↔
      (∃ n, a.shape = [n, n] ∧ ∀ i j, i < n → j < n → (a.value i j).IsFinite) ∧
      (lt = .combinatorial ∨ lt = .normalized) := by
  rw [Graph.init_eq]
  cases h1 : a.toCsr with
  | none =>
    have := (AdjInput.toCsr_none a).1 h1
    simp only [reduceCtorEq, exists_false, false_iff]
    rintro ⟨⟨n, hn, -⟩, -⟩
    exact this ⟨n, hn⟩
  | some p =>
    obtain ⟨m, A⟩ := p
    obtain ⟨hs, hv, -⟩ := AdjInput.toCsr_some a h1
    have hfin : (∀ x ∈ A.data, x.IsFinite) ↔
        (∃ n, a.shape = [n, n] ∧ ∀ i j, i < n → j < n → (a.value i j).IsFinite) := by
      rw [← Sp.isFinite_dense]
      constructor
      · intro h
        refine ⟨m, hs, fun i j hi hj => ?_⟩
        have := h ⟨i, hi⟩ ⟨j, hj⟩
        rwa [hv] at this
      · rintro ⟨n, hn, h⟩ i j
        rw [hs] at hn
        have : m = n := by simpa using hn
        subst this
        rw [hv]
        exact h i j i.2 j.2
    simp only
    split
    · rename_i hf
      rw [← hfin]
      cases lt <;> simp [Graph.ofCsr, Except.map] <;> exact hf
    · rename_i hf
      simp only [reduceCtorEq, exists_false, false_iff]
      rintro ⟨h, -⟩
      exact hf (hfin.2 h)

/-- Every rejection is a ValueError. -/
theorem C01_rejects_with_valueError [Field K] [LinearOrder K] (a : AdjInput K) (lt : LapType) (e : PyErr)
    (h : Graph.init a lt = .error e) : e = .valueError := by
  rw [Graph.init_eq] at h
  cases h1 : a.toCsr with
  | none => rw [h1] at h; simpa using h.symm
  | some p =>
    obtain ⟨m, A⟩ := p
    rw [h1] at h
    simp only at h
    split at h
    · cases lt <;> simp [Graph.ofCsr, Except.map] at h
      exact h.symm
    · simpa using h.symm

/-- On success `G.W` is the matrix that was passed (all its entries are then finite), no explicit zero
is stored, and the Laplacian type is the requested one. -/
theorem C01_constructor_weights [Field K] [LinearOrder K] (a : AdjInput K) (lt : LapType) (g : Graph n K)
    (h : Graph.init a lt = .ok ⟨n, g⟩) :
    a.shape = [n, n] ∧ (∀ i j : Fin n, a.value i j = .fin (g.W.dense i j)) ∧
      (∀ v ∈ g.W.data, v ≠ 0) ∧ g.lapType = lt := by
  obtain ⟨A, h1, h2, h3⟩ := Graph.init_ok h
  obtain ⟨hs, hv, -⟩ := AdjInput.toCsr_some a h1
  obtain ⟨h4, -, h6, -⟩ := Graph.ofCsr_ok h3
  refine ⟨hs, ?_, ?_, h6⟩
  · intro i j
    rw [← hv, h4, Sp.dense_eliminateZeros, Sp.dense_sumDuplicates, Sp.toFin_dense A h2]
    exact PyNum.fin_toFin ((Sp.isFinite_dense A).2 h2 i j)
  · intro v hv
    rw [h4] at hv
    simp only [Sp.data, List.mem_map] at hv
    obtain ⟨e, he, rfl⟩ := hv
    exact Sp.clean_eliminateZeros _ e he

/-- The logged warnings: self-loops iff some diagonal entry is non-zero, negative weights iff some
weight is negative. -/
theorem C01_constructor_warnings [Field K] [LinearOrder K] (a : AdjInput K) (lt : LapType) (g : Graph n K)
    (h : Graph.init a lt = .ok ⟨n, g⟩) :
    (Warning.selfLoops ∈ g.warnings ↔ ∃ i, g.W.dense i i ≠ 0) ∧
    (Warning.negativeWeights ∈ g.warnings ↔ ∃ i j, g.W.dense i j < 0) := by
  obtain ⟨A, h1, h2, h3⟩ := Graph.init_ok h
  have h4 := (Graph.ofCsr_ok h3).1
  have hd : g.W.dense = A.toFin.dense := by
    ext i j; rw [h4, Sp.dense_eliminateZeros, Sp.dense_sumDuplicates]
  rw [hd]
  have hw : g.warnings = (if hasLoops A.toFin then [Warning.selfLoops] else []) ++
      (if (List.finRange n).any (fun i => (List.finRange n).any fun j => A.toFin.dense i j < 0)
        then [Warning.negativeWeights] else []) := by
    unfold Graph.ofCsr at h3
    cases lt <;> simp at h3 <;> subst h3 <;> simp
  rw [hw]
  constructor
  · unfold hasLoops Sp.diagonal
    split <;> split <;> simp_all
  · split <;> split <;> simp_all

section examples
/-- a 2x2 weight matrix with an explicit zero block and a NaN variant -/
example : ∃ g, Graph.init (K := ℚ)
    (.ndarray [2, 2] fun l => if l = [0, 1] ∨ l = [1, 0] then .fin 3 else .fin 0) = .ok g :=
  (C01_constructor_accepts_iff _ _).2
    ⟨⟨2, rfl, fun i j _ _ => by
      simp only [AdjInput.value]
      by_cases h : ([i, j] = [0, 1] ∨ [i, j] = [1, 0]) <;> simp only [h, if_true, if_false] <;> trivial⟩, .inl rfl⟩
/-- `+inf` and `-inf` sum to NaN: still rejected -/
example : ¬ ∃ g, Graph.init (K := ℚ)
    (.ndarray [2, 2] fun l => if l = [0, 1] then .pinf else .ninf) = .ok g := by
  rw [C01_constructor_accepts_iff]
  rintro ⟨⟨n, hn, h⟩, -⟩
  have : 2 = n := by simpa [AdjInput.shape] using hn
  subst this
  simpa [AdjInput.value, PyNum.IsFinite] using h 0 1 (by norm_num) (by norm_num)
end examples

/-! ## C02 -/

/-- Undirected: `n_edges` is the number of unordered pairs `{i, j}` (self-loops included) with a non-zero
weight. -/
theorem C02_n_edges_undirected [Field K] [LinearOrder K] (g : Graph n K) (hg : g.Built)
    (hu : Undirected g.W.dense) : g.nEdges = (edges g.W.dense).card := by
  rw [hg.nEdges_eq, countEdges_undirected hg.canonical hg.clean hu]

/-- Directed: `n_edges` is the number of ordered pairs with a non-zero weight. -/
theorem C02_n_edges_directed [Field K] [LinearOrder K] (g : Graph n K) (hg : g.Built)
    (hu : ¬ Undirected g.W.dense) : g.nEdges = (arcs g.W.dense).card := by
  rw [hg.nEdges_eq, countEdges_directed hg.canonical hg.clean hu]

/-- Storage does not matter: two inputs holding the same matrix (with or without explicit zeros, in any
order, with positions stored once or several times, dense or sparse) give the same edge count. -/
theorem C02_storage_independent [Field K] [LinearOrder K] (a b : AdjInput K) (lt lt' : LapType)
    (g g' : Graph n K)
    (hga : Graph.init a lt = .ok ⟨n, g⟩) (hgb : Graph.init b lt' = .ok ⟨n, g'⟩)
    (hab : ∀ i j : Fin n, a.value i j = b.value i j) : g.nEdges = g'.nEdges := by
  have h1 := (C01_constructor_weights a lt g hga).2.1
  have h2 := (C01_constructor_weights b lt' g' hgb).2.1
  have hd : g.W.dense = g'.W.dense := by
    ext i j
    have := hab i j
    rw [h1, h2] at this
    exact PyNum.fin.inj this
  by_cases hu : Undirected g.W.dense
  · rw [C02_n_edges_undirected g ⟨a, lt, hga⟩ hu, C02_n_edges_undirected g' ⟨b, lt', hgb⟩ (hd ▸ hu), hd]
  · rw [C02_n_edges_directed g ⟨a, lt, hga⟩ hu, C02_n_edges_directed g' ⟨b, lt', hgb⟩ (hd ▸ hu), hd]

/-- Positions stored several times: the CSR matrix storing `(0,1)` twice and `(1,0)` twice (value 2 at both places) has one edge. -/
theorem C02_duplicate_storage :
    ∃ (A : Sp 2 2 (PyNum ℚ)) (g : Graph 2 ℚ), ¬ A.Canonical ∧ Graph.init (.csr 2 2 A) = .ok ⟨2, g⟩ ∧
      g.W.dense = !![0, 2; 2, 0] ∧ g.W.nnz = 2 ∧ g.nEdges = 1 := by
  let es : List (Fin 2 × Fin 2 × ℚ) := [(0, 1, 1), (0, 1, 1), (1, 0, 1), (1, 0, 1)]
  let A : Sp 2 2 (PyNum ℚ) := ⟨es.map fun e => (e.1, e.2.1, .fin e.2.2)⟩
  have hA : A.toFin = ⟨es⟩ := by simp [A, Sp.toFin, List.map_map, Function.comp_def, PyNum.toFin]
  have hd : ∀ x ∈ A.data, x.IsFinite := by
    intro x hx
    simp only [A, Sp.data, List.map_map, List.mem_map, Function.comp] at hx
    obtain ⟨e, _, rfl⟩ := hx
    trivial
  obtain ⟨g, hg⟩ : ∃ g, Graph.ofCsr (⟨es⟩ : Sp 2 2 ℚ) .combinatorial = .ok g := ⟨_, rfl⟩
  have hi : Graph.init (.csr 2 2 A) = .ok ⟨2, g⟩ := by
    rw [Graph.init_eq]
    simp only [AdjInput.toCsr, dite_true]
    rw [if_pos hd, hA, hg]
    rfl
  obtain ⟨h1, h2, -⟩ := Graph.ofCsr_ok hg
  have hb : g.Built := ⟨_, _, hi⟩
  have hden : g.W.dense = !![0, 2; 2, 0] := by
    ext i j
    rw [h1, Sp.dense_eliminateZeros, Sp.dense_sumDuplicates]
    fin_cases i <;> fin_cases j <;> simp [Sp.dense, es, List.filter_cons] <;> norm_num
  have hu : Undirected g.W.dense := by
    rw [hden]; intro i j; fin_cases i <;> fin_cases j <;> simp
  refine ⟨A, g, ?_, hi, hden, ?_, ?_⟩
  · simp [Sp.Canonical, Sp.keys, A, es]
  · rw [Sp.nnz_eq_card hb.canonical hb.clean, hden]; decide
  · rw [C02_n_edges_undirected g hb hu, hden]; decide

example : ∃ g : Graph 3 ℚ, g.Built ∧ Undirected g.W.dense ∧ (edges g.W.dense).card = 3 := by
  obtain ⟨g, hg, hd, -⟩ := Graph.exists_built (K := ℚ) !![0, 3, 0; 3, 0, 4; 0, 4, 1]
  refine ⟨g, hg, ?_, ?_⟩
  · rw [hd]; intro i j; fin_cases i <;> fin_cases j <;> simp
  · rw [hd]; decide

/-! ## C03 -/

/-- `is_directed()` is True exactly when the weight matrix is not symmetric. -/
theorem C03_is_directed_iff [Field K] [LinearOrder K] (W : Sp n n K) :
    isDirected W = true ↔ ¬ Undirected W.dense := by
  rw [isDirected_iff]
  unfold Undirected
  push Not
  rfl

example : isDirected (Sp.ofDense !![(0 : ℚ), 1; 0, 0]) = true ∧
    isDirected (Sp.ofDense !![(0 : ℚ), 1; 1, 0]) = false := by
  constructor
  · rw [isDirected_iff]; exact ⟨0, 1, by simp⟩
  · rw [isDirected_eq_false_iff]; intro i j; fin_cases i <;> fin_cases j <;> simp

/-! ## C04 -/

/-- `get_edge_list()` never raises, has `n_edges` elements, no repetition, and contains exactly the
edges with their weights: all ordered pairs if directed, one orientation `i <= j` if undirected. -/
theorem C04_edge_list [Field K] [LinearOrder K] (g : Graph n K) (hg : g.Built) :
    ∃ l, g.getEdgeList = .ok l ∧ l.length = g.nEdges ∧
      (l.map fun e => (e.1, e.2.1)).Nodup ∧
      ∀ i j w, (i, j, w) ∈ l ↔
        (g.W.dense i j = w ∧ w ≠ 0 ∧ (Undirected g.W.dense → i ≤ j)) := by
  by_cases hu : Undirected g.W.dense
  · have hd : isDirected g.W = false := (isDirected_eq_false_iff _).2 hu
    have hlen : g.nEdges = g.W.triu.entries.length := by
      rw [C02_n_edges_undirected g hg hu, card_edges_eq_le _ hu]
      have := Sp.length_filter_eq_card hg.canonical hg.clean (fun p => p.1 ≤ p.2)
      rw [← this]
      rfl
    refine ⟨g.W.triu.entries, ?_, hlen.symm, ?_, ?_⟩
    · unfold Graph.getEdgeList
      simp only [hd, Bool.false_eq_true, if_false]
      rw [if_pos hlen]
    · exact List.Nodup.sublist (List.Sublist.map _ List.filter_sublist) hg.canonical
    · intro i j w
      simp only [Sp.triu, List.mem_filter, decide_eq_true_eq]
      rw [Sp.mem_entries_iff hg.canonical hg.clean]
      tauto
  · have hd : isDirected g.W = true := (C03_is_directed_iff _).2 hu
    have hlen : g.nEdges = g.W.entries.length := by
      rw [C02_n_edges_directed g hg hu, ← Sp.nnz_eq_card hg.canonical hg.clean]
      rfl
    refine ⟨g.W.entries, ?_, hlen.symm, hg.canonical, ?_⟩
    · unfold Graph.getEdgeList
      simp only [hd, if_true]
      rw [if_pos hlen]
    · intro i j w
      rw [Sp.mem_entries_iff hg.canonical hg.clean]
      tauto

example : ∃ g : Graph 3 ℚ, g.Built ∧ ∃ l, g.getEdgeList = .ok l ∧ (0, 1, 3) ∈ l ∧ (1, 0, 3) ∉ l := by
  obtain ⟨g, hg, hd, -⟩ := Graph.exists_built (K := ℚ) !![0, 3, 0; 3, 0, 4; 0, 4, 0]
  obtain ⟨l, h1, -, -, h4⟩ := C04_edge_list g hg
  have hu : Undirected g.W.dense := by
    rw [hd]; intro i j; fin_cases i <;> fin_cases j <;> simp
  refine ⟨g, hg, l, h1, ?_, ?_⟩
  · rw [h4, hd]; simp
  · rw [h4]; intro h; exact absurd (h.2.2 hu) (by decide)

/-! ## C05 -/

/-- For a non-empty graph `is_connected()` terminates without raising and returns True iff every vertex
reaches every vertex; the result does not depend on the order in which the set is popped. -/
theorem C05_is_connected_iff [Field K] [LinearOrder K] (g : Graph n K) (hg : g.Built) (hn : 0 < n)
    (pop : Pop n) :
    ∃ b, isConnected pop g.W = .ok b ∧ (b = true ↔ StronglyConnected g.W.dense) :=
  isConnected_iff hg.canonical pop hn

/-- The empty graph: `visited[0]` raises IndexError. -/
theorem C05_empty_graph [Field K] [LinearOrder K] (W : Sp 0 0 K) (pop : Pop 0) :
    isConnected pop W = .error .indexError := by
  unfold isConnected; simp

/-- popping orders exist (here: the smallest element) -/
def Pop.smallest (n : ℕ) : Pop n := ⟨fun _ s h => s.min' h, fun _ s h => s.min'_mem h⟩

/-- a directed path of two vertices is not (strongly) connected, whatever the popping order -/
example (pop : Pop 2) : ∃ g : Graph 2 ℚ, g.Built ∧ isConnected pop g.W = .ok false := by
  obtain ⟨g, hg, hd, -⟩ := Graph.exists_built (K := ℚ) !![0, 1; 0, 0]
  obtain ⟨b, h1, h2⟩ := C05_is_connected_iff g hg (by norm_num) pop
  refine ⟨g, hg, ?_⟩
  rw [h1]
  have : ¬ StronglyConnected g.W.dense := by
    intro h
    have h3 := h 1 0
    rcases Relation.ReflTransGen.cases_head h3 with h4 | ⟨c, h4, -⟩
    · exact absurd h4 (by decide)
    · rw [Arc, hd] at h4
      fin_cases c <;> simp at h4
  cases b
  · rfl
  · exact absurd (h2.1 rfl) this

/-! ## C06 -/

/-- `has_loops()` is True iff some vertex has a non-zero diagonal weight. -/
theorem C06_has_loops_iff [Field K] [LinearOrder K] (W : Sp n n K) :
    hasLoops W = true ↔ ∃ i, W.dense i i ≠ 0 := by
  simp [hasLoops, Sp.diagonal]

/-- `is_weighted()` is False iff every non-zero weight is 1. -/
theorem C06_is_weighted_iff [Field K] [LinearOrder K] (g : Graph n K) (hg : g.Built) :
    isWeighted g.W = false ↔ ∀ i j, g.W.dense i j = 0 ∨ g.W.dense i j = 1 := by
  simp only [isWeighted, Sp.data, Bool.not_eq_false', List.all_eq_true, List.mem_map, decide_eq_true_eq,
    forall_exists_index, and_imp, forall_apply_eq_imp_iff₂]
  constructor
  · intro h i j
    by_cases h0 : g.W.dense i j = 0
    · exact .inl h0
    · exact .inr (h _ ((Sp.mem_entries_iff hg.canonical hg.clean).2 ⟨h0, rfl⟩))
  · rintro h ⟨i, j, w⟩ he
    obtain ⟨h1, h2⟩ := (Sp.mem_entries_iff hg.canonical hg.clean).1 he
    simp only
    rcases h i j with h3 | h3
    · exact absurd (h2.symm.trans h3) h1
    · exact h2.symm.trans h3

example : ∃ g : Graph 2 ℚ, g.Built ∧ isWeighted g.W = true ∧ hasLoops g.W = true := by
  obtain ⟨g, hg, hd, -⟩ := Graph.exists_built (K := ℚ) !![2, 1; 1, 0]
  refine ⟨g, hg, ?_, ?_⟩
  · rw [← Bool.not_eq_false, C06_is_weighted_iff g hg, hd]
    intro h; have := h 0 0; norm_num at this
  · rw [C06_has_loops_iff, hd]; exact ⟨0, by simp⟩

/-! ## C07 -/

/-- `G.d[i]` is the mean of the numbers of non-zero entries of column `i` and row `i`; the shortcut taken
for undirected graphs gives the same number. -/
theorem C07_degree [Field K] [LinearOrder K] [IsStrictOrderedRing K] (g : Graph n K) (hg : g.Built) (i : Fin n) :
    degree g.W i = (((Finset.univ.filter fun j => g.W.dense j i ≠ 0).card : K)
      + ((Finset.univ.filter fun j => g.W.dense i j ≠ 0).card : K)) / 2 := by
  have hrow : (g.W.rowNnz i) = (Finset.univ.filter fun j => g.W.dense i j ≠ 0).card := by
    have := Sp.length_filter_eq_card hg.canonical hg.clean (fun p => p.1 = i)
    unfold Sp.rowNnz
    rw [this]
    symm
    apply Finset.card_bij (fun j _ => (i, j))
    · intro j hj; simpa using hj
    · intro a _ b _ h; exact (Prod.mk.inj h).2
    · rintro ⟨a, b⟩ hp
      simp only [Finset.mem_filter, Finset.mem_univ, true_and] at hp
      obtain ⟨rfl, hp⟩ := hp
      exact ⟨b, by simpa using hp, rfl⟩
  have hcol : (g.W.colNnz i) = (Finset.univ.filter fun j => g.W.dense j i ≠ 0).card := by
    have := Sp.length_filter_eq_card hg.canonical hg.clean (fun p => p.2 = i)
    unfold Sp.colNnz
    rw [this]
    symm
    apply Finset.card_bij (fun j _ => (j, i))
    · intro j hj; simpa using hj
    · intro a _ b _ h; exact (Prod.mk.inj h).1
    · rintro ⟨a, b⟩ hp
      simp only [Finset.mem_filter, Finset.mem_univ, true_and] at hp
      obtain ⟨rfl, hp⟩ := hp
      exact ⟨a, by simpa using hp, rfl⟩
  unfold degree
  split
  · rw [hrow, hcol]
  · rename_i h
    have hu : Undirected g.W.dense := by
      rw [← isDirected_eq_false_iff]; simpa using h
    have : (Finset.univ.filter fun j => g.W.dense j i ≠ 0) = (Finset.univ.filter fun j => g.W.dense i j ≠ 0) := by
      ext j; simp [hu j i]
    rw [hrow, this]
    ring

/-- `G.dw[i]` is the mean of the in- and out-weights of `i`, also when the undirected shortcut is taken. -/
theorem C07_weighted_degree [Field K] [LinearOrder K] [IsStrictOrderedRing K] (W : Sp n n K) (i : Fin n) :
    dw W i = ((∑ j, W.dense j i) + ∑ j, W.dense i j) / 2 := by
  unfold dw
  split
  · rfl
  · rename_i h
    have hu : Undirected W.dense := by
      rw [← isDirected_eq_false_iff]; simpa using h
    have : ∑ j, W.dense i j = ∑ j, W.dense j i := Finset.sum_congr rfl fun j _ => hu i j
    rw [this]; ring

/-- `G.A[i, j]` is True iff the weight is positive; with non-negative weights, iff there is an arc. -/
theorem C07_adjacency [Field K] [LinearOrder K] [IsStrictOrderedRing K] (W : Sp n n K) (hW : NonnegW W.dense)
    (i j : Fin n) : posAdj W i j = true ↔ Arc W.dense i j := by
  unfold posAdj Arc
  rw [decide_eq_true_eq]
  exact ⟨fun h => ne_of_gt h, fun h => lt_of_le_of_ne (hW i j) (Ne.symm h)⟩

example : ∃ g : Graph 3 ℚ, g.Built ∧ degree g.W 1 = 3 / 2 ∧ dw g.W 1 = 5 / 2 := by
  obtain ⟨g, hg, hd, -⟩ := Graph.exists_built (K := ℚ) !![0, 1, 0; 0, 0, 2; 0, 2, 0]
  refine ⟨g, hg, ?_, ?_⟩
  · rw [C07_degree g hg, hd]
    have h1 : (Finset.univ.filter fun j => (!![(0:ℚ), 1, 0; 0, 0, 2; 0, 2, 0] : Matrix (Fin 3) (Fin 3) ℚ) j 1 ≠ 0).card = 2 := by
      decide
    have h2 : (Finset.univ.filter fun j => (!![(0:ℚ), 1, 0; 0, 0, 2; 0, 2, 0] : Matrix (Fin 3) (Fin 3) ℚ) 1 j ≠ 0).card = 1 := by
      decide
    rw [h1, h2]; norm_num
  · rw [C07_weighted_degree, hd]; simp [Fin.sum_univ_three]; norm_num

/-! ## C08 -/

/-- `G.subgraph(vertices)`: weights, coordinates and signals are those of the selected vertices, in the
selected order; the Laplacian type is kept. `vertices` may be a list of indices (any order, repetitions
allowed) or a boolean mask.  The dictionary keys of `G.signals` are distinct. -/
theorem C08_subgraph {K R : Type} [Field K] [LinearOrder K] (g : GraphObj n K R) (hg : g.graph.Built)
    (hs : (g.signals.map Prod.fst).Nodup) (v : VSel n) :
    ∃ g', g.subgraph v = .ok g' ∧
      (∀ a b, g'.graph.W.dense a b = g.graph.W.dense (v.toList.get a) (v.toList.get b)) ∧
      g'.coords = g.coords.map (fun c a => c (v.toList.get a)) ∧
      g'.signals = g.signals.map (fun p => (p.1, fun a => p.2 (v.toList.get a))) ∧
      g'.graph.lapType = g.graph.lapType ∧ g'.graph.W.Canonical := by
  have hlt : g.graph.lapType = .combinatorial ∨ g.graph.lapType = .normalized := by
    obtain ⟨a, lt, h⟩ := hg
    obtain ⟨A, h1, h2, h3⟩ := Graph.init_ok h
    obtain ⟨-, -, h6, h7⟩ := Graph.ofCsr_ok h3
    rw [h6]; exact h7
  obtain ⟨g', h1, h2⟩ := subgraph_eq g v hs hlt
  obtain ⟨h3, -, h5, -⟩ := Graph.ofCsr_ok h1
  refine ⟨_, h2, ?_, rfl, rfl, h5, ?_⟩
  · intro a b
    rw [h3, Sp.dense_eliminateZeros, Sp.dense_sumDuplicates, Sp.dense_fancyIndex]
  · rw [h3]
    exact (Sp.canonical_sumDuplicates _).eliminateZeros

/-- A boolean mask selects the marked vertices in increasing order. -/
theorem C08_mask (m : Fin n → Bool) :
    (∀ i, i ∈ (VSel.mask m).toList ↔ m i = true) ∧ (VSel.mask m).toList.Pairwise (· < ·) := by
  constructor
  · intro i; simp [VSel.toList]
  · exact (List.pairwise_lt_finRange n).filter _

example : ∃ g : GraphObj 4 ℚ ℚ, g.graph.Built ∧ ∃ g', g.subgraph (.idx [0, 2, 1]) = .ok g' ∧
    g'.graph.W.dense (0 : Fin 3) (2 : Fin 3) = 3 ∧ g'.graph.W.dense (1 : Fin 3) (2 : Fin 3) = 4 ∧
    g'.graph.W.dense (0 : Fin 3) (1 : Fin 3) = 0 := by
  obtain ⟨g, hg, hd, -⟩ := Graph.exists_built (K := ℚ) !![0, 3, 0, 0; 3, 0, 4, 0; 0, 4, 0, 2; 0, 0, 2, 0]
  let o : GraphObj 4 ℚ ℚ := ⟨g, none, [("s", fun _ => 1)]⟩
  obtain ⟨g', h1, h2, -⟩ := C08_subgraph o hg (by simp [o]) (.idx [0, 2, 1])
  refine ⟨o, hg, g', h1, ?_, ?_, ?_⟩
  · refine (h2 (0 : Fin 3) (2 : Fin 3)).trans ?_
    rw [show o.graph.W.dense = _ from hd]; rfl
  · refine (h2 (1 : Fin 3) (2 : Fin 3)).trans ?_
    rw [show o.graph.W.dense = _ from hd]; rfl
  · refine (h2 (0 : Fin 3) (1 : Fin 3)).trans ?_
    rw [show o.graph.W.dense = _ from hd]; rfl

/-! ## C09 -/

/-- Directed graphs raise NotImplementedError. -/
theorem C09_directed_raises {K R : Type} [Field K] [LinearOrder K] (pop : Pop n) (g : GraphObj n K R)
    (h : ¬ Undirected g.graph.W.dense) : g.extractComponents pop = .error .notImplementedError := by
  unfold GraphObj.extractComponents
  rw [if_pos ((C03_is_directed_iff _).2 h)]

theorem mapM_ok {α β : Type} (f : α → Py β) (h : α → β) (l : List α) (hf : ∀ a ∈ l, f a = .ok (h a)) :
    l.mapM f = .ok (l.map h) := by
  induction l with
  | nil => rfl
  | cons a l ih =>
    rw [List.mapM_cons, hf a (by simp), ih (fun b hb => hf b (by simp [hb]))]
    rfl

/-- For an undirected graph with non-negative weights, for any popping order: the call succeeds; the
`orig_idx` lists are increasing, pairwise disjoint, cover all vertices; each one is exactly the set of
vertices reachable from any of its members; and each graph is the induced subgraph. -/
theorem C09_extract_components {K R : Type} [Field K] [LinearOrder K] [IsStrictOrderedRing K] (pop : Pop n)
    (g : GraphObj n K R) (hg : g.graph.Built) (hs : (g.signals.map Prod.fst).Nodup)
    (hu : Undirected g.graph.W.dense) (hW : NonnegW g.graph.W.dense) :
    ∃ cs, g.extractComponents pop = .ok cs ∧
      (cs.map (·.origIdx)).flatten.Nodup ∧
      (∀ v, ∃ c ∈ cs, v ∈ c.origIdx) ∧
      (∀ c ∈ cs, c.origIdx.Pairwise (· < ·) ∧ c.origIdx ≠ [] ∧
        (∀ u ∈ c.origIdx, ∀ x, x ∈ c.origIdx ↔ Reach g.graph.W.dense u x) ∧
        g.subgraph (.idx c.origIdx) = .ok c.obj) := by
  have hA : (fun a b => posAdj g.graph.W a b = true) = Arc g.graph.W.dense := by
    ext a b; exact C07_adjacency g.graph.W hW a b
  obtain ⟨cs, h1, h2, h3, h4, h5⟩ := componentsLoop_spec (posAdj g.graph.W)
    (by intro a b; unfold posAdj; rw [hu a b]) pop n ∅ (by simp) (by simp)
  rw [hA] at h5
  have hsub : ∀ l : List (Fin n), ∃ o, g.subgraph (.idx l) = .ok o := fun l =>
    let ⟨o, ho, _⟩ := C08_subgraph g hg hs (.idx l); ⟨o, ho⟩
  choose sub hsub using hsub
  refine ⟨cs.map fun l => ⟨l, sub l⟩, ?_, ?_, ?_, ?_⟩
  · unfold GraphObj.extractComponents
    rw [if_neg (by rw [C03_is_directed_iff]; exact fun h => h hu), h1]
    apply mapM_ok
    intro l _
    rw [hsub l]
    rfl
  · rw [List.map_map]
    simpa [Function.comp_def] using h3
  · intro v
    obtain ⟨c, hc, hv⟩ := (h2 v).1 (by simp)
    exact ⟨_, List.mem_map.2 ⟨c, hc, rfl⟩, hv⟩
  · intro c hc
    obtain ⟨l, hl, rfl⟩ := List.mem_map.1 hc
    obtain ⟨v0, hv0, hr⟩ := h5 l hl
    refine ⟨h4 l hl, List.ne_nil_of_mem hv0, ?_, hsub l⟩
    intro u hu' x
    rw [hr]
    have h0u : Reach g.graph.W.dense v0 u := (hr u).1 hu'
    have hu0 : Reach g.graph.W.dense u v0 := by
      rw [← reach_transpose]
      have : (fun a b => g.graph.W.dense b a) = g.graph.W.dense := by ext a b; exact hu b a
      rw [this]; exact h0u
    exact ⟨fun h => hu0.trans h, fun h => h0u.trans h⟩

/-- FINDING: with a negative weight, `extract_components` (which uses `W > 0`) disagrees with
`is_connected` (which uses `W != 0`): the two-vertex graph with weight -1 is connected but is split in two. -/
theorem C09_negative_weights_violated (pop : Pop 2) :
    ∃ (g : Graph 2 ℚ), g.Built ∧ isConnected pop g.W = .ok true ∧
      ∃ cs, (GraphObj.mk g none [] : GraphObj 2 ℚ ℚ).extractComponents pop = .ok cs ∧
        ∀ c ∈ cs, c.origIdx.length = 1 := by
  obtain ⟨g, hg, hd, -⟩ := Graph.exists_built (K := ℚ) !![0, -1; -1, 0]
  have hu : Undirected g.W.dense := by
    rw [hd]; intro i j; fin_cases i <;> fin_cases j <;> simp
  refine ⟨g, hg, ?_, ?_⟩
  · obtain ⟨b, h1, h2⟩ := C05_is_connected_iff g hg (by norm_num) pop
    rw [h1]
    have : StronglyConnected g.W.dense := by
      have h01 : Arc g.W.dense 0 1 := by rw [Arc, hd]; simp
      have h10 : Arc g.W.dense 1 0 := by rw [Arc, hd]; simp
      intro i j
      fin_cases i <;> fin_cases j
      · exact .refl
      · exact .single h01
      · exact .single h10
      · exact .refl
    rw [h2.2 this]
  · have hA : ∀ a b, posAdj g.W a b = false := by
      intro a b
      unfold posAdj
      rw [hd]
      fin_cases a <;> fin_cases b <;> simp
    obtain ⟨cs, h1, h2, h3, h4, h5⟩ := componentsLoop_spec (posAdj g.W)
      (by intro a b; rw [hA, hA]) pop 2 ∅ (by simp) (by simp)
    have hsub : ∀ l : List (Fin 2), ∃ o, (GraphObj.mk g none [] : GraphObj 2 ℚ ℚ).subgraph (.idx l) = .ok o := fun l =>
      let ⟨o, ho, _⟩ := C08_subgraph (GraphObj.mk g none [] : GraphObj 2 ℚ ℚ) hg (by simp) (.idx l); ⟨o, ho⟩
    choose sub hsub using hsub
    refine ⟨cs.map fun l => ⟨l, sub l⟩, ?_, ?_⟩
    · unfold GraphObj.extractComponents
      rw [if_neg (by rw [C03_is_directed_iff]; exact fun h => h hu), h1]
      apply mapM_ok
      intro l _
      rw [hsub l]
      rfl
    · intro c hc
      obtain ⟨l, hl, rfl⟩ := List.mem_map.1 hc
      obtain ⟨v0, hv0, hr⟩ := h5 l hl
      have hx : ∀ x ∈ l, x = v0 := by
        intro x hx
        have := (hr x).1 hx
        rcases Relation.ReflTransGen.cases_head this with h6 | ⟨c, h6, -⟩
        · exact h6.symm
        · rw [hA] at h6; simp at h6
      have hnd : l.Nodup := (h4 l hl).imp (fun h => ne_of_lt h)
      show l.length = 1
      match l, hv0, hnd, hx with
      | [x], _, _, _ => rfl
      | x :: y :: _, _, hnd, hx =>
        have e1 := hx x (by simp)
        have e2 := hx y (by simp)
        rw [e1, e2] at hnd
        simp at hnd

example : ∃ (g : GraphObj 3 ℚ ℚ), g.graph.Built ∧ Undirected g.graph.W.dense ∧ NonnegW g.graph.W.dense ∧
    ¬ StronglyConnected g.graph.W.dense := by
  obtain ⟨g, hg, hd, -⟩ := Graph.exists_built (K := ℚ) !![0, 1, 0; 1, 0, 0; 0, 0, 0]
  refine ⟨⟨g, none, []⟩, hg, ?_, ?_, ?_⟩
  · simp only [hd]; intro i j; fin_cases i <;> fin_cases j <;> simp
  · simp only [hd]; intro i j; fin_cases i <;> fin_cases j <;> simp
  · intro h
    have h3 := h 2 0
    rcases Relation.ReflTransGen.cases_head h3 with h4 | ⟨c, h4, -⟩
    · exact absurd h4 (by decide)
    · rw [Arc, hd] at h4
      fin_cases c <;> simp at h4

/-! ## C16 -/

/-- `_check_signal` accepts exactly the arrays whose first dimension is `n_vertices`, unchanged, and
raises ValueError otherwise. -/
theorem C16_check_signal {R : Type} (n : ℕ) (s : Rows R) :
    (s.len ≠ n → checkSignal n s = .error .valueError) ∧
    (∀ h : s.len = n, ∃ x, checkSignal n s = .ok x ∧ ∀ i : Fin s.len, x (i.cast h) = s.row i) := by
  constructor
  · intro h; unfold checkSignal; rw [dif_neg h]
  · intro h
    refine ⟨_, by unfold checkSignal; rw [dif_pos h], ?_⟩
    intro i; rfl

/-- `set_signal(s, name)`: on success the dictionary maps `name` to `s` and nothing else changes
(the other names keep their value); with a wrong length it raises ValueError. -/
theorem C16_set_signal {K R : Type} (g : GraphObj n K R) (s : Rows R) (name : String) :
    (s.len ≠ n → g.setSignal s name = .error .valueError) ∧
    (∀ h : s.len = n, ∃ g', g.setSignal s name = .ok g' ∧ g'.graph = g.graph ∧ g'.coords = g.coords ∧
      (dictGet g'.signals name = some fun i => s.row (i.cast h.symm)) ∧
      ∀ k, k ≠ name → dictGet g'.signals k = dictGet g.signals k) := by
  constructor
  · intro h; unfold GraphObj.setSignal checkSignal; rw [dif_neg h]; rfl
  · intro h
    refine ⟨{ g with signals := dictSet g.signals name fun i => s.row (i.cast h.symm) }, ?_, rfl, rfl, ?_, ?_⟩
    · unfold GraphObj.setSignal checkSignal; rw [dif_pos h]; rfl
    · exact dictGet_dictSet_self _ _ _
    · intro k hk
      exact dictGet_dictSet_ne _ _ _ _ hk

example : checkSignal 3 (⟨3, fun i => i⟩ : Rows (Fin 3)) = .ok (fun i => i) := by
  obtain ⟨x, h1, h2⟩ := (C16_check_signal 3 (⟨3, fun i => i⟩ : Rows (Fin 3))).2 rfl
  rw [h1]; congr 1; funext i; exact h2 i

end PyGSP
