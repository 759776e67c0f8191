import Verif.Lemmas.Constructor

namespace PyGSP

variable {n m : ℕ} {K : Type*}

/-- A graph object as returned by the constructor. -/
def Graph.Built [Field K] [LinearOrder K] (g : Graph n K) : Prop :=
  ∃ (a : AdjInput K) (lt : LapType), Graph.init a lt = .ok ⟨n, g⟩

theorem Graph.ofCsr_ok [Field K] [LinearOrder K] {W : Sp n n K} {lt : LapType} {g : Graph n K}
    (h : Graph.ofCsr W lt = .ok g) :
    g.W = W.sumDuplicates.eliminateZeros ∧ g.nEdges = countEdges W.sumDuplicates.eliminateZeros ∧ g.lapType = lt ∧
      (lt = .combinatorial ∨ lt = .normalized) := by
  unfold Graph.ofCsr at h
  cases lt <;> simp at h <;> subst h <;> simp

theorem Graph.init_ok [Field K] [LinearOrder K] {a : AdjInput K} {lt : LapType} {g : Graph n K}
    (h : Graph.init a lt = .ok ⟨n, g⟩) :
    ∃ A : Sp n n (PyNum K), a.toCsr = some ⟨n, A⟩ ∧ (∀ x ∈ A.data, x.IsFinite) ∧
      Graph.ofCsr A.toFin lt = .ok g := by
  rw [Graph.init_eq] at h
  cases h1 : a.toCsr with
  | none => rw [h1] at h; simp at h
  | some p =>
    obtain ⟨m, A⟩ := p
    rw [h1] at h
    simp only at h
    split at h
    · rename_i hf
      cases h2 : Graph.ofCsr A.toFin lt with
      | error e => rw [h2] at h; simp [Except.map] at h
      | ok g' =>
        rw [h2] at h
        simp only [Except.map, Except.ok.injEq, Sigma.mk.injEq] at h
        obtain ⟨rfl, h⟩ := h
        have h := eq_of_heq h
        subst h
        exact ⟨A, rfl, hf, h2⟩
    · simp at h

theorem Graph.Built.canonical [Field K] [LinearOrder K] {g : Graph n K} (h : g.Built) :
    g.W.Canonical := by
  obtain ⟨a, lt, h⟩ := h
  obtain ⟨A, h1, h2, h3⟩ := Graph.init_ok h
  obtain ⟨h4, -⟩ := Graph.ofCsr_ok h3
  rw [h4]
  exact (Sp.canonical_sumDuplicates _).eliminateZeros

theorem Graph.Built.clean [Field K] [LinearOrder K] {g : Graph n K} (h : g.Built) : g.W.Clean := by
  obtain ⟨a, lt, h⟩ := h
  obtain ⟨A, h1, h2, h3⟩ := Graph.init_ok h
  obtain ⟨h4, -⟩ := Graph.ofCsr_ok h3
  rw [h4]
  exact Sp.clean_eliminateZeros _

theorem Graph.Built.lapType_known [Field K] [LinearOrder K] {g : Graph n K} (h : g.Built) :
    g.lapType = .combinatorial ∨ g.lapType = .normalized := by
  obtain ⟨a, lt, h⟩ := h
  obtain ⟨A, h1, h2, h3⟩ := Graph.init_ok h
  obtain ⟨-, -, h4, h5⟩ := Graph.ofCsr_ok h3
  rw [h4]; exact h5

theorem Graph.Built.nEdges_eq [Field K] [LinearOrder K] {g : Graph n K} (h : g.Built) :
    g.nEdges = countEdges g.W := by
  obtain ⟨a, lt, h⟩ := h
  obtain ⟨A, h1, h2, h3⟩ := Graph.init_ok h
  obtain ⟨h4, h5, -⟩ := Graph.ofCsr_ok h3
  rw [h4, h5]

/-- every finite matrix gives a built graph -/
theorem Graph.exists_built [Field K] [LinearOrder K] (M : Matrix (Fin n) (Fin n) K)
    (lt : LapType := .combinatorial) (hlt : lt = .combinatorial ∨ lt = .normalized := by simp) :
    ∃ g : Graph n K, g.Built ∧ g.W.dense = M ∧ g.lapType = lt := by
  let A : Sp n n (PyNum K) := ⟨(Sp.ofDense M).entries.map fun e => (e.1, e.2.1, .fin e.2.2)⟩
  have hA : A.toFin = Sp.ofDense M := by
    simp [A, Sp.toFin, List.map_map, Function.comp_def, PyNum.toFin]
  have hd : ∀ x ∈ A.data, x.IsFinite := by
    intro x hx
    simp only [A, Sp.data, List.map_map, List.mem_map, Function.comp] at hx
    obtain ⟨e, _, rfl⟩ := hx
    trivial
  obtain ⟨g, hg⟩ : ∃ g, Graph.ofCsr (Sp.ofDense M) lt = .ok g := by
    rcases hlt with rfl | rfl <;> exact ⟨_, rfl⟩
  obtain ⟨h1, -, h3, -⟩ := Graph.ofCsr_ok hg
  refine ⟨g, ⟨.csr n n A, lt, ?_⟩, ?_, h3⟩
  · rw [Graph.init_eq]
    simp only [AdjInput.toCsr, dite_true]
    rw [if_pos hd, hA, hg]
    rfl
  · ext i j
    rw [h1, Sp.dense_eliminateZeros, Sp.dense_sumDuplicates, Sp.dense_ofDense]

/-- the same adjacency with the other Laplacian type -/
theorem Graph.Built.withLapType [Field K] [LinearOrder K] {g : Graph n K} (h : g.Built) (lt : LapType)
    (hlt : lt = .combinatorial ∨ lt = .normalized) : ({ g with lapType := lt } : Graph n K).Built := by
  obtain ⟨a, lt0, h⟩ := h
  obtain ⟨A, h1, h2, h3⟩ := Graph.init_ok h
  refine ⟨a, lt, ?_⟩
  rw [Graph.init_eq, h1]
  simp only
  rw [if_pos h2]
  have : Graph.ofCsr A.toFin lt = .ok { g with lapType := lt } := by
    unfold Graph.ofCsr at h3 ⊢
    cases lt0 <;> simp at h3 <;> subst h3 <;> rcases hlt with rfl | rfl <;> rfl
  rw [this]
  rfl

/-! ### counting -/

section counting
variable [Zero K] [DecidableEq K] (M : Matrix (Fin n) (Fin n) K)

theorem arcs_card_split (P : Fin n × Fin n → Prop) [DecidablePred P] :
    (Finset.univ.filter P).card =
      (Finset.univ.filter (fun p => p.1 < p.2 ∧ P p)).card
      + (Finset.univ.filter (fun p => p.2 < p.1 ∧ P p)).card
      + (Finset.univ.filter (fun p => p.1 = p.2 ∧ P p)).card := by
  rw [← Finset.card_union_of_disjoint, ← Finset.card_union_of_disjoint]
  · congr 1
    ext p
    simp only [Finset.mem_filter, Finset.mem_univ, true_and, Finset.mem_union]
    rcases lt_trichotomy p.1 p.2 with h | h | h <;> simp [h, not_lt_of_gt, ne_of_gt, ne_of_lt]
  · rw [Finset.disjoint_left]
    intro p hp hq
    simp only [Finset.mem_filter, Finset.mem_univ, true_and, Finset.mem_union] at hp hq
    rcases hp with hp | hp <;> exact absurd hq.1 (by have := hp.1; intro h; simp [h] at this)
  · rw [Finset.disjoint_left]
    intro p hp hq
    simp only [Finset.mem_filter, Finset.mem_univ, true_and] at hp hq
    exact absurd hp.1 (not_lt_of_gt hq.1)

theorem card_lt_eq_card_gt (hM : Spec.Undirected M) :
    (Finset.univ.filter (fun p : Fin n × Fin n => p.2 < p.1 ∧ M p.1 p.2 ≠ 0)).card
      = (Finset.univ.filter (fun p : Fin n × Fin n => p.1 < p.2 ∧ M p.1 p.2 ≠ 0)).card := by
  apply Finset.card_bij (fun p _ => p.swap)
  · intro p hp
    simp only [Finset.mem_filter, Finset.mem_univ, true_and, Prod.fst_swap, Prod.snd_swap] at hp ⊢
    exact ⟨hp.1, by rw [hM]; exact hp.2⟩
  · intro a _ b _ h
    exact Prod.swap_injective h
  · intro p hp
    refine ⟨p.swap, ?_, by simp⟩
    simp only [Finset.mem_filter, Finset.mem_univ, true_and, Prod.fst_swap, Prod.snd_swap] at hp ⊢
    exact ⟨hp.1, by rw [hM]; exact hp.2⟩

theorem card_diag :
    (Finset.univ.filter (fun p : Fin n × Fin n => p.1 = p.2 ∧ M p.1 p.2 ≠ 0)).card
      = (Finset.univ.filter (fun i : Fin n => M i i ≠ 0)).card := by
  symm
  apply Finset.card_bij (fun i _ => (i, i))
  · intro i hi
    simpa using hi
  · intro a _ b _ h
    exact (Prod.mk.inj h).1
  · rintro ⟨a, b⟩ hp
    simp only [Finset.mem_filter, Finset.mem_univ, true_and] at hp
    obtain ⟨rfl, hp⟩ := hp
    exact ⟨a, by simpa using hp, rfl⟩

theorem card_edges_eq_le (hM : Spec.Undirected M) :
    (Spec.edges M).card
      = (Finset.univ.filter (fun p : Fin n × Fin n => p.1 ≤ p.2 ∧ M p.1 p.2 ≠ 0)).card := by
  symm
  apply Finset.card_bij (fun p _ => s(p.1, p.2))
  · intro p hp
    simp only [Finset.mem_filter, Finset.mem_univ, true_and] at hp
    simp only [Spec.edges, Spec.arcs, Finset.mem_image, Finset.mem_filter, Finset.mem_univ, true_and]
    exact ⟨p, hp.2, rfl⟩
  · intro a ha b hb h
    simp only [Finset.mem_filter, Finset.mem_univ, true_and] at ha hb
    rw [Sym2.eq_iff] at h
    rcases h with ⟨h1, h2⟩ | ⟨h1, h2⟩
    · exact Prod.ext h1 h2
    · have : a.1 = a.2 := le_antisymm ha.1 (by rw [h1, h2]; exact hb.1)
      apply Prod.ext
      · exact this.trans h2
      · exact this.symm.trans h1
  · intro q hq
    simp only [Spec.edges, Spec.arcs, Finset.mem_image, Finset.mem_filter, Finset.mem_univ, true_and] at hq
    obtain ⟨p, hp, rfl⟩ := hq
    rcases le_total p.1 p.2 with h | h
    · exact ⟨p, by simp [h, hp], rfl⟩
    · refine ⟨p.swap, ?_, Sym2.eq_swap⟩
      simp only [Finset.mem_filter, Finset.mem_univ, true_and, Prod.fst_swap, Prod.snd_swap]
      exact ⟨h, by rw [hM]; exact hp⟩

theorem card_le_eq (P : Fin n × Fin n → Prop) [DecidablePred P] :
    (Finset.univ.filter (fun p : Fin n × Fin n => p.1 ≤ p.2 ∧ P p)).card
      = (Finset.univ.filter (fun p : Fin n × Fin n => p.1 < p.2 ∧ P p)).card
        + (Finset.univ.filter (fun p : Fin n × Fin n => p.1 = p.2 ∧ P p)).card := by
  rw [← Finset.card_union_of_disjoint]
  · congr 1
    ext p
    simp only [Finset.mem_filter, Finset.mem_univ, true_and, Finset.mem_union, le_iff_lt_or_eq]
    tauto
  · rw [Finset.disjoint_left]
    intro p hp hq
    simp only [Finset.mem_filter, Finset.mem_univ, true_and] at hp hq
    exact absurd hp.1 (by simp [hq.1])

end counting

theorem length_filter_finRange (P : Fin n → Prop) [DecidablePred P] :
    ((List.finRange n).filter (fun i => P i)).length = (Finset.univ.filter P).card := by
  rw [← List.toFinset_card_of_nodup (List.Nodup.filter _ (List.nodup_finRange n))]
  congr 1
  ext i
  simp

theorem countEdges_undirected [AddMonoid K] [DecidableEq K] {W : Sp n n K} (h : W.Canonical) (hc : W.Clean)
    (hu : Spec.Undirected W.dense) : countEdges W = (Spec.edges W.dense).card := by
  unfold countEdges
  rw [if_neg (by rw [isDirected_iff]; push Not; exact hu)]
  have hd : (W.diagonal.filter (fun x => x ≠ 0)).length
      = (Finset.univ.filter (fun i : Fin n => W.dense i i ≠ 0)).card := by
    rw [← length_filter_finRange]
    simp [Sp.diagonal, List.filter_map, Function.comp_def]
  simp only
  rw [hd, Sp.nnz_eq_card h hc, card_edges_eq_le _ hu, card_le_eq, ← card_diag]
  unfold Spec.arcs
  rw [arcs_card_split, card_lt_eq_card_gt _ hu]
  omega

theorem countEdges_directed [AddMonoid K] [DecidableEq K] {W : Sp n n K} (h : W.Canonical) (hc : W.Clean)
    (hu : ¬ Spec.Undirected W.dense) : countEdges W = (Spec.arcs W.dense).card := by
  unfold countEdges
  rw [if_pos]
  · exact Sp.nnz_eq_card h hc
  · rw [isDirected_iff]
    unfold Spec.Undirected at hu
    push Not at hu
    exact hu

end PyGSP
