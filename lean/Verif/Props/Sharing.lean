import Verif.Lemmas.Sharing
import Verif.Lemmas.Edges
import Verif.Props.Core

/-!
# C112: the caller's CSR matrix and the graph made from it
-/

namespace PyGSP

open Sharing

variable {n : ℕ} {K : Type}

section

variable [Field K] [LinearOrder K] {m : Mem n K} {o : Obj}

/-- **C112** `G.W` reads, in the memory as the constructor leaves it, as the weights of the graph that the constructor computes from the matrix that was passed. -/
theorem C112_refines (h : WF m o) {lt : LapType} {g : Graph n K} (hg : Graph.ofCsr (m.read o) lt = .ok g) :
    (m.graph o).2.read (m.graph o).1 = g.W ∧ WF (m.graph o).2 (m.graph o).1 := by
  obtain ⟨a1, a2, -⟩ := prune_spec h
  obtain ⟨b1, b2, -⟩ := sumDuplicates_spec a2
  obtain ⟨c1, c2, -⟩ := eliminateZeros_spec b2
  rw [b1, a1] at c1
  exact ⟨c1.trans (Graph.ofCsr_ok hg).1.symm, c2⟩

theorem graph_caller (h : WF m o) (hcap : (m.body o.body).length / 2 ≤ (m.read o).keys.toFinset.card) :
    WF (m.graph o).2 o ∧ (m.graph o).2.read o = (m.read o).sumDuplicates.eliminateZeros ∧
      ((m.body o.body).length / 2 ≤ (m.read o).sumDuplicates.eliminateZeros.nnz → (m.graph o).1.body = o.body) ∧ (m.graph o).1.indptr = o.indptr := by
  obtain ⟨a1, a2, a3, a4, a5, a6, a7, a8⟩ := prune_spec h
  have hn : ¬ m.nnz o < (m.body o.body).length / 2 := by
    have h1 := Sp.keys_card_le (m.read o)
    rw [h.length] at h1
    omega
  obtain ⟨a9, a10⟩ := a8 hn
  obtain ⟨b1, b2, b3, b4, b5, b6, b7⟩ := sumDuplicates_spec a2
  have ha : (m.share o) = (m.prune o) := rfl
  rw [a1, a9, a10] at b7
  obtain ⟨b8, b9, b10, b11⟩ := b7 hcap
  have hl : (m.prune o).1.len ≤ o.len := by rw [a7]; exact h.nnz
  obtain ⟨b12, b13⟩ := b11 o a3.symm rfl hl h.len (fun _ => h) (fun _ => rfl)
  obtain ⟨c1, c2, c3, c4, c5, c6, c7, c8⟩ := eliminateZeros_spec b2
  have hlen : (m.sumDuplicates (m.prune o).1).1.len ≤ o.len := by
    have hb2 := b2
    rw [a10] at hb2
    have : (m.sumDuplicates (m.prune o).1).1.len ≤ (m.prune o).1.len := by
      unfold Mem.sumDuplicates
      split
      · exact le_refl _
      · have hw : WF (m.write (m.prune o).1 (m.read (m.prune o).1).sumDuplicates.entries) (m.prune o).1 := by
          have h2 := a2
          rw [a10] at h2
          refine write_wf _ rfl rfl ?_ h2.len h2.fresh
          rw [Sp.sumDuplicates_length]
          exact (Sp.keys_card_le _).trans (h2.length.le.trans h2.nnz)
        rw [(prune_spec hw).2.2.2.2.2.2.1]
        exact hw.nnz
    exact this.trans hl
  rw [a1] at b1
  rw [a10] at c7 b1 c8 c3 b3
  obtain ⟨c9, c10⟩ := c7 o (by rw [b3, a3]) b8.symm hlen (by rw [b8, b10]; exact h.len)
  unfold Mem.graph
  simp only [ha]
  rw [a10]
  refine ⟨c9, by rw [c10, b1], fun hc => ?_, by rw [c3, b3, a3]⟩
  rw [c8 (by rw [b1, b8, b10]; exact hc), b8]

/-- **C112** Making a graph from a CSR matrix whose stored positions fill at least half of its arrays keeps the matrix: its entries become those of `G.W` (sorted, no position twice,
no stored zero), so the matrix has the same values as before. -/
theorem C112_caller_keeps (h : WF m o) (hcap : (m.body o.body).length / 2 ≤ (m.read o).keys.toFinset.card) {lt : LapType} {g : Graph n K}
    (hg : Graph.ofCsr (m.read o) lt = .ok g) :
    WF (m.graph o).2 o ∧ (m.graph o).2.read o = g.W ∧ ((m.graph o).2.read o).dense = (m.read o).dense := by
  obtain ⟨h1, h2, -⟩ := graph_caller h hcap
  refine ⟨h1, h2.trans (Graph.ofCsr_ok hg).1.symm, ?_⟩
  rw [h2]
  ext i j
  rw [Sp.dense_eliminateZeros, Sp.dense_sumDuplicates]

/-- **C112** What is read through arrays that the matrix does not use is not changed. -/
theorem C112_frame (h : WF m o) {o' : Obj} (h1 : o'.indptr ≠ o.indptr) (h2 : o'.body ≠ o.body) (h3 : o'.body < m.next) : (m.graph o).2.read o' = m.read o' := by
  obtain ⟨a1, a2, a3, a4, a5, a6, a7, a8⟩ := prune_spec h
  obtain ⟨b1, b2, b3, b4, b5, b6, b7⟩ := sumDuplicates_spec a2
  obtain ⟨c1, c2, c3, c4, c5, c6, c7, c8⟩ := eliminateZeros_spec b2
  have ha : (m.prune o).1.body = o.body ∨ (m.prune o).1.body = m.next := by
    unfold Mem.prune
    split
    · exact .inr rfl
    · exact .inl rfl
  have hb : ∀ (m : Mem n K) (o : Obj), (m.sumDuplicates o).1.body = o.body ∨ (m.sumDuplicates o).1.body = m.next := by
    intro m o
    unfold Mem.sumDuplicates Mem.prune
    split
    · exact .inl rfl
    · split
      · exact .inr rfl
      · exact .inl rfl
  refine read_congr ?_ ?_
  · refine (c4 _ (by rw [b3, a3]; exact h1)).trans ((b4 _ (by rw [a3]; exact h1)).trans ?_)
    rw [a4]
  · have hne : o'.body ≠ (m.prune o).1.body := by
      rcases ha with ha | ha <;> rw [ha]
      · exact h2
      · omega
    have hne2 : o'.body ≠ ((m.prune o).2.sumDuplicates (m.prune o).1).1.body := by
      rcases hb (m.prune o).2 (m.prune o).1 with hb | hb <;> rw [hb]
      · exact hne
      · omega
    exact (c5 _ (by omega) hne2).trans ((b5 _ (by omega) hne).trans (a5 _ h3))

/-- A matrix in canonical format without stored zeros: the constructor writes nothing. -/
theorem graph_clean (h : WF m o) (hc : CanonicalFormat (m.read o)) (hz : (m.read o).Clean) : m.graph o = m.prune o := by
  obtain ⟨a1, a2, a3, a4, a5, a6, a7, a8⟩ := prune_spec h
  have e1 : (m.prune o).2.sumDuplicates (m.prune o).1 = ((m.prune o).1, (m.prune o).2) := by
    unfold Mem.sumDuplicates
    rw [if_pos (by rw [a1]; exact hc)]
  have e2 : (m.read o).eliminateZeros.entries = (m.read o).entries := by
    unfold Sp.eliminateZeros
    rw [List.filter_eq_self]
    intro e he
    simpa using hz e he
  unfold Mem.graph
  have ha : (m.share o) = (m.prune o) := rfl
  simp only [ha]
  rw [e1]
  unfold Mem.eliminateZeros
  simp only
  rw [a1, e2, ← a1, write_read a2]
  have hnn : (m.prune o).2.nnz (m.prune o).1 = m.nnz o := by
    unfold Mem.nnz; rw [a4, a3]
  by_cases hx : m.nnz o < (m.body o.body).length / 2
  · have hl : ((m.prune o).2.body (m.prune o).1.body).length = m.nnz o := by
      unfold Mem.prune
      rw [if_pos hx]
      simp only [Function.update_self, List.length_take]
      have := h.nnz
      have := h.len
      omega
    rw [Mem.prune.eq_def (m.prune o).2, hnn, hl, if_neg (by omega)]
    conv_rhs => rw [← Prod.mk.eta (p := m.prune o)]
    congr 1
    rw [← a7]
  · obtain ⟨a9, a10⟩ := a8 hx
    rw [Mem.prune.eq_def (m.prune o).2, hnn, a9, a10, if_neg hx]
    conv_rhs => rw [← Prod.mk.eta (p := m.prune o)]
    rw [a10]
    congr 1
    rw [← a7, ← a9]

/-- **C112** If the matrix is in canonical format and stores no zero, making a graph from it writes nothing: every object, on whichever arrays, reads as before. -/
theorem C112_untouched (h : WF m o) (hc : CanonicalFormat (m.read o)) (hz : (m.read o).Clean) (o' : Obj) (ho' : o'.body < m.next) :
    (m.graph o).2.read o' = m.read o' := by
  rw [graph_clean h hc hz]
  obtain ⟨a1, a2, a3, a4, a5, -⟩ := prune_spec h
  exact read_congr (by rw [a4]) (a5 _ ho')

/-! ### histories -/

/-- What the program does with the matrix: make a graph from it, or assign a stored value. -/
inductive Sharing.Step (K : Type)
  | build
  | set (k : ℕ) (v : K)

/-- The memory and the graphs made so far. -/
def Sharing.run (o : Obj) : List (Step K) → Mem n K → Mem n K × List Obj
  | [], m => (m, [])
  | .build :: l, m => ((run o l (m.graph o).2).1, (m.graph o).1 :: (run o l (m.graph o).2).2)
  | .set k v :: l, m => run o l (m.setData o k v)

/-- What the caller expects of the matrix: only the assignments change it. -/
def Sharing.expected (l : List (Step K)) (E : List (Fin n × Fin n × K)) : List (Fin n × Fin n × K) :=
  l.foldl (fun E s => match s with
    | .build => E
    | .set k v => E.modify k fun e => (e.1, e.2.1, v)) E

/-- assignments of non-zero values to stored positions -/
def Sharing.Legal (nnz : ℕ) : Step K → Prop
  | .build => True
  | .set k v => k < nnz ∧ v ≠ 0

theorem modify_keys (A : Sp n n K) (hc : CanonicalFormat A) (hz : A.Clean) {k : ℕ} {v : K} (hv : v ≠ 0) :
    CanonicalFormat (⟨A.entries.modify k fun e => (e.1, e.2.1, v)⟩ : Sp n n K) ∧ (⟨A.entries.modify k fun e => (e.1, e.2.1, v)⟩ : Sp n n K).Clean := by
  obtain ⟨E⟩ := A
  constructor
  · unfold CanonicalFormat at hc ⊢
    have key : ∀ E' : List (Fin n × Fin n × K), E'.Pairwise (fun e e' => e.1 < e'.1 ∨ (e.1 = e'.1 ∧ e.2.1 < e'.2.1)) ↔
        (E'.map fun e => (e.1, e.2.1)).Pairwise (fun e e' => e.1 < e'.1 ∨ (e.1 = e'.1 ∧ e.2 < e'.2)) := fun E' => by rw [List.pairwise_map]
    rw [key] at hc ⊢
    have : (E.modify k fun e => (e.1, e.2.1, v)).map (fun e => (e.1, e.2.1)) = E.map fun e => (e.1, e.2.1) := by
      refine List.ext_getElem? fun i => ?_
      simp only [List.getElem?_map, List.getElem?_modify]
      split <;> cases E[i]? <;> simp
    rw [this]
    exact hc
  · intro e he
    obtain ⟨i, hi⟩ := List.mem_iff_getElem?.1 he
    replace hi : (E.modify k fun e => (e.1, e.2.1, v))[i]? = some e := hi
    simp only [List.getElem?_modify] at hi
    cases hx : E[i]? with
    | none => rw [hx] at hi; simp at hi
    | some e0 =>
      rw [hx] at hi
      have h0 := hz e0 (List.mem_iff_getElem?.2 ⟨i, hx⟩)
      split at hi <;> simp at hi <;> rw [← hi]
      · exact hv
      · exact h0

/-- **C112** Through every history in which graphs are made from a matrix in canonical format without stored zeros and non-zero values are assigned to its stored entries, the matrix is what the
caller expects.  If its arrays are filled at least to the half, every graph made on the way reads as the matrix does at the end: assigning a value changes them all. -/
theorem C112_histories (l : List (Step K)) : ∀ {m : Mem n K} {o : Obj}, WF m o → CanonicalFormat (m.read o) → (m.read o).Clean → (∀ s ∈ l, Legal (m.nnz o) s) →
    ((run o l m).1.read o).entries = expected l (m.read o).entries ∧
    ((m.body o.body).length / 2 ≤ m.nnz o → ∀ g ∈ (run o l m).2, (run o l m).1.read g = (run o l m).1.read o) := by
  suffices key : ∀ (l : List (Step K)) {m : Mem n K} {o : Obj}, WF m o → CanonicalFormat (m.read o) → (m.read o).Clean → (∀ s ∈ l, Legal (m.nnz o) s) →
      ((run o l m).1.read o).entries = expected l (m.read o).entries ∧
      ((m.body o.body).length / 2 ≤ m.nnz o → (∀ g ∈ (run o l m).2, (run o l m).1.read g = (run o l m).1.read o) ∧
        ∀ g : Obj, g.indptr = o.indptr → g.body = o.body → g.len = m.nnz o → (run o l m).1.read g = (run o l m).1.read o) by
    intro m o h1 h2 h3 h4
    exact ⟨(key l h1 h2 h3 h4).1, fun h => ((key l h1 h2 h3 h4).2 h).1⟩
  intro l
  induction l with
  | nil =>
    intro m o h1 h2 h3 h4
    refine ⟨rfl, fun hcap => ⟨fun g hg => (List.not_mem_nil hg).elim, fun g g1 g2 g3 => ?_⟩⟩
    have := (prune_spec h1).1
    unfold Mem.prune at this
    rw [if_neg (by omega)] at this
    obtain ⟨p, q, r⟩ := g
    simp only at g1 g2 g3
    subst g1 g2 g3
    exact this
  | cons s l ih =>
    intro m o h1 h2 h3 h4
    cases s with
    | build =>
      have hgc := graph_clean h1 h2 h3
      obtain ⟨a1, a2, a3, a4, a5, a6, a7, a8⟩ := prune_spec h1
      rw [← hgc] at a1 a2 a3 a4 a5 a6 a7 a8
      have hb := a5 _ h1.fresh
      have hnn : (m.graph o).2.nnz o = m.nnz o := by unfold Mem.nnz; rw [a4]
      have hr : (m.graph o).2.read o = m.read o := read_congr (by rw [a4]) hb
      have hw : WF (m.graph o).2 o := ⟨by rw [a4]; exact h1.zero, by rw [a4]; exact h1.mono, by rw [hnn]; exact h1.nnz, by rw [hb]; exact h1.len, lt_of_lt_of_le h1.fresh a6⟩
      obtain ⟨i1, i2⟩ := ih hw (by rw [hr]; exact h2) (by rw [hr]; exact h3) (fun s hs => by rw [hnn]; exact h4 s (List.mem_cons_of_mem _ hs))
      refine ⟨by rw [← hr]; exact i1, fun hcap => ?_⟩
      obtain ⟨a9, a10⟩ := a8 (by omega)
      obtain ⟨i3, i4⟩ := i2 (by rw [hb, hnn]; exact hcap)
      rw [hnn] at i4
      refine ⟨fun g hg => ?_, i4⟩
      rcases List.mem_cons.1 hg with rfl | hg
      · exact i4 _ a3 a9 a7
      · exact i3 g hg
    | set k v =>
      obtain ⟨hk, hv⟩ := h4 _ List.mem_cons_self
      obtain ⟨r1, r2⟩ := read_setData (o := o) h1 rfl hk v
      obtain ⟨c1, c2⟩ := modify_keys (m.read o) h2 h3 (k := k) hv
      have hr : (m.setData o k v).read o = ⟨(m.read o).entries.modify k fun e => (e.1, e.2.1, v)⟩ := by
        cases hx : (m.setData o k v).read o
        rw [hx] at r1
        exact congrArg Sp.mk r1
      have hnn : (m.setData o k v).nnz o = m.nnz o := rfl
      obtain ⟨i1, i2⟩ := ih r2 (by rw [hr]; exact c1) (by rw [hr]; exact c2) (fun s hs => h4 s (List.mem_cons_of_mem _ hs))
      refine ⟨?_, fun hcap => ?_⟩
      · rw [r1] at i1
        exact i1
      · have hl : ((m.setData o k v).body o.body).length = (m.body o.body).length := by simp [Mem.setData]
        exact i2 (by rw [hl, hnn]; exact hcap)

end

/-! ### findings -/

/-- A matrix with six stored entries, four of them zero: `W[0,1] = 2`, `W[1,0] = 2`. -/
def Sharing.mem6 : Mem 3 ℤ where
  indptr := fun _ => ![0, 2, 4, 6]
  body := fun _ => [(1, 2), (2, 0), (0, 2), (2, 0), (0, 0), (1, 0)]
  next := 1

/-- The caller's object. -/
def Sharing.callerObj : Obj := ⟨0, 0, 6⟩

theorem wf_mem6 : WF mem6 callerObj where
  zero := rfl
  mono := by decide
  nnz := by decide
  len := by decide
  fresh := by decide

/-- FINDING: the caller's matrix can be corrupted.  A matrix with `W[0,1] = W[1,0] = 2` is stored with four explicit zeros.  `G1 = Graph(W)` removes them; then `W.data[0] = 0` leaves
`W[1,0] = 2` alone, and `G2 = Graph(W)` is the right graph - but afterwards `W` is the zero matrix, and `G1.W` has a self-loop at vertex 1: of the three arrays, only `indptr` was shared. -/
theorem C112_corrupts_violated : ∃ m1 m2 m3 : Mem 3 ℤ, ∃ g1 g2 : Obj,
    (mem6.read callerObj).dense = !![0, 2, 0; 2, 0, 0; 0, 0, 0] ∧ mem6.graph callerObj = (g1, m1) ∧ (m1.read g1).dense = !![0, 2, 0; 2, 0, 0; 0, 0, 0] ∧
    m2 = m1.setData callerObj 0 0 ∧ (m2.read callerObj).dense = !![0, 0, 0; 2, 0, 0; 0, 0, 0] ∧ m2.graph callerObj = (g2, m3) ∧
    (m3.read g2).dense = !![0, 0, 0; 2, 0, 0; 0, 0, 0] ∧ (m3.read callerObj).dense = 0 ∧ (m3.read g1).dense = !![0, 0, 0; 0, 2, 0; 0, 0, 0] := by
  refine ⟨_, _, _, _, _, ?_, rfl, ?_, rfl, ?_, rfl, ?_, ?_, ?_⟩ <;> decide

/-- The graph with two vertices and one edge of weight one. -/
def Sharing.mem2 : Mem 2 ℚ where
  indptr := fun _ => ![0, 1, 2]
  body := fun _ => [(1, 1), (0, 1)]
  next := 1

theorem wf_mem2 : WF mem2 ⟨0, 0, 2⟩ where
  zero := rfl
  mono := by decide
  nnz := by decide
  len := by decide
  fresh := by decide

theorem read_mem2 : mem2.read ⟨0, 0, 2⟩ = ⟨[(0, 1, 1), (1, 0, 1)]⟩ := rfl

theorem clean_mem2 : CanonicalFormat (mem2.read ⟨0, 0, 2⟩) ∧ (mem2.read ⟨0, 0, 2⟩).Clean := by
  rw [read_mem2]
  constructor
  · simp [CanonicalFormat]
  · intro e he
    simp at he
    rcases he with rfl | rfl <;> norm_num

/-- FINDING: values computed by the constructor do not follow the shared memory.  After `G = Graph(W)`, the assignment `W.data[0] = 5` changes `G.W`, which becomes directed, with two edges; `G.n_edges`
is still one, and `G.L` is still the Laplacian of the old weights. -/
theorem C112_stale_violated : ∃ g : Graph 2 ℚ, Graph.ofCsr (mem2.read ⟨0, 0, 2⟩) .combinatorial = .ok g ∧ g.nEdges = 1 ∧ g.W.dense = !![0, 1; 1, 0] ∧
    ((mem2.graph ⟨0, 0, 2⟩).2.read (mem2.graph ⟨0, 0, 2⟩).1).dense = !![0, 1; 1, 0] ∧
    (((mem2.graph ⟨0, 0, 2⟩).2.setData ⟨0, 0, 2⟩ 0 5).read (mem2.graph ⟨0, 0, 2⟩).1).dense = !![0, 5; 1, 0] := by
  obtain ⟨g, hg⟩ : ∃ g, Graph.ofCsr (mem2.read ⟨0, 0, 2⟩) .combinatorial = .ok g := ⟨_, rfl⟩
  have hr := (C112_refines wf_mem2 hg).1
  have hd : (mem2.read ⟨0, 0, 2⟩).dense = !![0, 1; 1, 0] := by
    rw [read_mem2]
    ext i j
    fin_cases i <;> fin_cases j <;> simp [Sp.dense, List.filter_cons]
  have hW : g.W.dense = !![0, 1; 1, 0] := by
    rw [← hd]
    ext i j
    rw [(Graph.ofCsr_ok hg).1, Sp.dense_eliminateZeros, Sp.dense_sumDuplicates]
  have hgr : mem2.graph ⟨0, 0, 2⟩ = (⟨0, 0, 2⟩, mem2) := by
    rw [graph_clean wf_mem2 clean_mem2.1 clean_mem2.2]
    rfl
  refine ⟨g, hg, ?_, hW, by rw [hr, hW], ?_⟩
  · obtain ⟨h1, h2, -⟩ := Graph.ofCsr_ok hg
    have hc : g.W.Canonical := by rw [h1]; exact (Sp.canonical_sumDuplicates _).eliminateZeros
    have hz : g.W.Clean := by rw [h1]; exact Sp.clean_eliminateZeros _
    rw [h2, ← h1, countEdges_undirected hc hz (by rw [hW]; intro i j; fin_cases i <;> fin_cases j <;> simp), hW]
    decide
  · rw [hgr]
    have : (mem2.setData ⟨0, 0, 2⟩ 0 5).read ⟨0, 0, 2⟩ = ⟨[(0, 1, 5), (1, 0, 1)]⟩ := rfl
    simp only [this]
    ext i j
    fin_cases i <;> fin_cases j <;> simp [Sp.dense, List.filter_cons]

/-! ### the hypotheses are satisfiable -/

/-- A history on `mem2`: a graph, an assignment, another graph. -/
example : WF mem2 ⟨0, 0, 2⟩ ∧ CanonicalFormat (mem2.read ⟨0, 0, 2⟩) ∧ (mem2.read ⟨0, 0, 2⟩).Clean ∧
    (∀ s ∈ [Step.build, .set 0 (5 : ℚ), .build], Legal (mem2.nnz ⟨0, 0, 2⟩) s) ∧ (mem2.body 0).length / 2 ≤ mem2.nnz ⟨0, 0, 2⟩ := by
  refine ⟨wf_mem2, clean_mem2.1, clean_mem2.2, ?_, by decide⟩
  intro s hs
  simp at hs
  rcases hs with rfl | rfl | rfl
  · trivial
  · exact ⟨by decide, by norm_num⟩
  · trivial

/-- A matrix with explicit zeros, all of whose arrays are in use, and another one. -/
example : ∃ (m : Mem 3 ℚ) (o o' : Obj), WF m o ∧ (m.body o.body).length / 2 ≤ (m.read o).keys.toFinset.card ∧ ¬ (m.read o).Clean ∧ (∃ g, Graph.ofCsr (m.read o) .combinatorial = .ok g) ∧
    o'.indptr ≠ o.indptr ∧ o'.body ≠ o.body ∧ o'.body < m.next := by
  refine ⟨⟨fun _ => ![0, 2, 4, 6], fun _ => [(1, 2), (2, 0), (0, 2), (2, 0), (0, 0), (1, 0)], 2⟩, ⟨0, 0, 6⟩, ⟨1, 1, 6⟩, ⟨rfl, by decide, by decide, by decide, by decide⟩, by decide, ?_, ⟨_, rfl⟩,
    by decide, by decide, by decide⟩
  intro h
  exact h (0, 2, 0) (by decide) rfl

end PyGSP
