import Verif.Lemmas.Sparsify
import Verif.Props.FilterWitness

/-!
# C66: spectral sparsification
-/

namespace PyGSP

open Matrix Spec GState Reduction

variable {n : ℕ}

namespace Reduction

/-- `dist.rvs(size=q)` returns `q` indices of edges (there are `m` edges). -/
def IsSampler (m : ℕ) (draws : ℕ → ℕ → List ℕ) : Prop := ∀ i q, (draws i q).length = q ∧ ∀ k ∈ draws i q, k < m

/-- The number of edges of an undirected graph without self-loops. -/
noncomputable def edgeCount (M : Matrix (Fin n) (Fin n) ℝ) : ℕ :=
  open Classical in (Finset.univ.filter fun p : Fin n × Fin n => p.2 < p.1 ∧ M p.1 p.2 ≠ 0).card

/-- A graph that can be sparsified: undirected, no self-loop, every edge has a weight of at least `1e-10`. -/
structure Sparsifiable (M : Matrix (Fin n) (Fin n) ℝ) : Prop where
  undirected : Undirected M
  loopless : ∀ i, M i i = 0
  weights : ∀ i j, M i j = 0 ∨ 1 / 10 ^ 10 ≤ M i j

theorem Sparsifiable.nonneg {M : Matrix (Fin n) (Fin n) ℝ} (h : Sparsifiable M) : NonnegW M := fun i j => by
  rcases h.weights i j with h | h
  · rw [h]
  · exact le_trans (by norm_num) h

theorem Sparsifiable.ne_iff {M : Matrix (Fin n) (Fin n) ℝ} (h : Sparsifiable M) (i j : Fin n) : 1 / 10 ^ 10 ≤ M i j ↔ M i j ≠ 0 := by
  constructor
  · intro h1 h2
    rw [h2] at h1
    norm_num at h1
  · exact (h.weights i j).resolve_left

theorem length_edges {M : Matrix (Fin n) (Fin n) ℝ} (h : Sparsifiable M) : (sparsifyEdges M).length = edgeCount M := by
  have h1 := sum_edges M (fun _ _ _ => 1)
  simp only [Finset.sum_const, Finset.card_univ, Fintype.card_fin, nsmul_eq_mul, mul_one] at h1
  have h2 : ((sparsifyEdges M).length : ℝ) = (edgeCount M : ℝ) := by
    rw [h1]
    unfold edgeCount
    classical
    rw [Finset.card_filter]
    push_cast
    rw [← Finset.univ_product_univ, Finset.sum_product]
    refine Finset.sum_congr rfl fun i _ => Finset.sum_congr rfl fun j _ => ?_
    have : (j ≤ i ∧ 1 / 10 ^ 10 ≤ M i j) ↔ (j < i ∧ M i j ≠ 0) := by
      rw [h.ne_iff]
      constructor
      · rintro ⟨a, b⟩
        refine ⟨lt_of_le_of_ne a ?_, b⟩
        rintro rfl
        exact b (h.loopless _)
      · rintro ⟨a, b⟩; exact ⟨a.le, b⟩
    simp only [this]
  exact_mod_cast h2

theorem spin_alg (c : ℝ) {w r q T : ℝ} (hw : w ≠ 0) (hr : r ≠ 0) (hq : q ≠ 0) (hT : T ≠ 0) :
    c * (w / (q * (w * r / T))) * r = c * (T / q) := by
  field_simp

theorem sum_mul_entries {m : ℕ} (a b : Fin m → Fin n) (v : Fin m → ℝ) (f : Fin n → Fin n → ℝ) :
    ∑ i, ∑ j, (∑ k, if a k = i ∧ b k = j then v k else 0) * f i j = ∑ k, v k * f (a k) (b k) := by
  simp only [Finset.sum_mul]
  rw [Finset.sum_congr rfl fun i _ => Finset.sum_comm, Finset.sum_comm]
  refine Finset.sum_congr rfl fun k _ => ?_
  rw [Finset.sum_eq_single (a k), Finset.sum_eq_single (b k)]
  · simp
  · intro j _ hj; rw [if_neg (fun h => hj h.2.symm)]; simp
  · simp
  · intro i _ hi
    refine Finset.sum_eq_zero fun j _ => ?_
    rw [if_neg (fun h => hi h.1.symm)]; simp
  · simp

/-- the weights computed by one iteration -/
theorem weights_core {pinv} {L W : Matrix (Fin n) (Fin n) ℝ} {q : ℕ} {res : List ℕ} {W' : Matrix (Fin n) (Fin n) ℝ}
    (h : sparsifyOnce (resistanceOfMatrix pinv L) (sparsifyEdges W) q res = .ok W') :
    Undirected W' ∧ NonnegW W' ∧ (∀ i, W' i i = 0) ∧ ∀ i j, W' i j ≠ 0 → 1 / 10 ^ 10 ≤ W (max i j) (min i j) := by
  obtain ⟨hne, hW⟩ := sparsifyOnce_ok h
  have hpos : ∀ k : Fin (sparsifyEdges W).length,
      0 ≤ (res.count k.1 : ℝ) * (max 0 ((sparsifyEdges W).get k).2.2 / (q * edgeProb (resistanceOfMatrix pinv L) (sparsifyEdges W) k)) := by
    intro k
    have : 0 ≤ edgeProb (resistanceOfMatrix pinv L) (sparsifyEdges W) k := by
      unfold edgeProb edgeScore
      exact div_nonneg (by positivity) (Finset.sum_nonneg fun l _ => by positivity)
    positivity
  have hlow : ∀ i j, (∑ k : Fin (sparsifyEdges W).length, if ((sparsifyEdges W).get k).1 = i ∧ ((sparsifyEdges W).get k).2.1 = j then
        (res.count k.1 : ℝ) * (max 0 ((sparsifyEdges W).get k).2.2 / (q * edgeProb (resistanceOfMatrix pinv L) (sparsifyEdges W) k)) else 0) ≠ 0 →
      j < i ∧ 1 / 10 ^ 10 ≤ W i j := by
    intro i j h0
    obtain ⟨k, -, hk⟩ := Finset.exists_ne_zero_of_sum_ne_zero h0
    have hk1 : ((sparsifyEdges W).get k).1 = i ∧ ((sparsifyEdges W).get k).2.1 = j := by
      by_contra hc; exact hk (if_neg hc)
    obtain ⟨-, -, -, h4⟩ := edgeProb_ne (hne k)
    have hm : (sparsifyEdges W).get k ∈ sparsifyEdges W := List.get_mem _ _
    obtain ⟨-, h2, -⟩ := mem_sparsifyEdges.1 (show (((sparsifyEdges W).get k).1, ((sparsifyEdges W).get k).2.1, ((sparsifyEdges W).get k).2.2) ∈ _ from hm)
    rw [hk1.1, hk1.2] at h2 h4
    exact ⟨h4, h2⟩
  refine ⟨fun i j => by rw [hW, hW]; ring, fun i j => ?_, fun i => ?_, fun i j h0 => ?_⟩
  · rw [hW]
    exact add_nonneg (Finset.sum_nonneg fun k _ => by split <;> [exact hpos k; exact le_rfl])
      (Finset.sum_nonneg fun k _ => by split <;> [exact hpos k; exact le_rfl])
  · rw [hW]
    by_contra hc
    have := (hlow i i fun h0 => hc (by rw [h0, add_zero])).1
    exact lt_irrefl _ this
  · rw [hW] at h0
    by_cases hc : (∑ k : Fin (sparsifyEdges W).length, if ((sparsifyEdges W).get k).1 = i ∧ ((sparsifyEdges W).get k).2.1 = j then
        (res.count k.1 : ℝ) * (max 0 ((sparsifyEdges W).get k).2.2 / (q * edgeProb (resistanceOfMatrix pinv L) (sparsifyEdges W) k)) else 0) = 0
    · rw [hc, zero_add] at h0
      obtain ⟨h1, h2⟩ := hlow j i h0
      rwa [max_eq_right h1.le, min_eq_left h1.le]
    · obtain ⟨h1, h2⟩ := hlow i j hc
      rwa [max_eq_left h1.le, min_eq_right h1.le]

/-- the graph that is returned has the weights of the last iteration -/
theorem graph_of_weights {pop : Pop n} {pinv} {draws : ℕ → ℕ → List ℕ} {eps : ℝ} {maxiter : ℕ} {s : GState n}
    (hc : s.lapType = .combinatorial) {W' : Matrix (Fin n) (Fin n) ℝ}
    (h : sparsifyWeights pop pinv draws eps maxiter s.L s.W.dense = .ok W') :
    ∃ g', graphSparsify pop pinv draws eps maxiter s = .ok g' ∧ g'.Built ∧ g'.W.dense = W' ∧ g'.lapType = .combinatorial := by
  obtain ⟨-, -, -, -, i, eps', -, -, ho⟩ := sparsifyWeights_ok h
  obtain ⟨hu, -, hz, -⟩ := weights_core ho
  have h1 : Matrix.diagonal (fun i => sparserL W' i i) - sparserL W' = W' := by
    ext a b
    unfold sparserL
    by_cases hab : a = b
    · subst hab; simp [hz]
    · simp [hab]
  have h2 : (1 / 2 : ℝ) • (W' + W'ᵀ) = W' := by
    ext a b
    simp only [Matrix.smul_apply, Matrix.add_apply, Matrix.transpose_apply, smul_eq_mul]
    rw [hu b a]; ring
  obtain ⟨g', e1, e2, e3, e4⟩ := Graph.ofCsr_ofDense W' (lt := .combinatorial) (.inl rfl)
  refine ⟨g', ?_, e2, e3, e4⟩
  unfold graphSparsify
  rw [if_neg (not_not.2 hc), h]
  simp only [h1, h2, ite_self]
  exact e1

theorem weights_of_graph {pop : Pop n} {pinv} {draws : ℕ → ℕ → List ℕ} {eps : ℝ} {maxiter : ℕ} {s : GState n} {g' : Graph n ℝ}
    (h : graphSparsify pop pinv draws eps maxiter s = .ok g') :
    s.lapType = .combinatorial ∧ sparsifyWeights pop pinv draws eps maxiter s.L s.W.dense = .ok g'.W.dense ∧ g'.Built := by
  have h' := h
  unfold graphSparsify at h'
  split at h'
  · cases h'
  · rename_i hc
    rw [not_not] at hc
    split at h'
    · cases h'
    · rename_i W' hW'
      obtain ⟨g1, e1, e2, e3, -⟩ := graph_of_weights hc hW'
      rw [h] at e1
      cases e1
      exact ⟨hc, by rw [e3]; exact hW', e2⟩

end Reduction

/-- **The sparsified graph is a sub-graph**: for every graph (after any history), every outcome of the random generator and
every number of iterations, what `graph_sparsify` returns is an undirected graph with non-negative weights and without
self-loops, and each of its edges is an edge of the original graph with a weight of at least `1e-10` (looked up in the lower
triangle). -/
theorem C66_subgraph {pop : Pop n} {pinv} {draws : ℕ → ℕ → List ℕ} {eps : ℝ} {maxiter : ℕ} {s : GState n} {g' : Graph n ℝ}
    (h : graphSparsify pop pinv draws eps maxiter s = .ok g') :
    g'.Built ∧ Undirected g'.W.dense ∧ NonnegW g'.W.dense ∧ (∀ i, g'.W.dense i i = 0) ∧
      ∀ i j, g'.W.dense i j ≠ 0 → 1 / 10 ^ 10 ≤ s.W.dense (max i j) (min i j) := by
  obtain ⟨-, hw, hb⟩ := weights_of_graph h
  obtain ⟨-, -, -, -, i, eps', -, -, ho⟩ := sparsifyWeights_ok hw
  exact ⟨hb, weights_core ho⟩

section Main

variable {S : Solvers n} {g : Graph n ℝ} {s : GState n}
  {pinv : Matrix (Fin n) (Fin n) ℝ → Matrix (Fin n) (Fin n) ℝ} {draws : ℕ → ℕ → List ℕ}

namespace Reduction

theorem state_core (hS : Sound S) (hg : g.Built) {hist : List (Op n)} (hs : s = runAll S hist (GState.ofGraph g))
    (hc : s.lapType = .combinatorial) : s.L = combLap g.W.dense ∧ s.W.dense = g.W.dense := by
  refine ⟨L_combinatorial hS hg hist hs hc, ?_⟩
  obtain ⟨-, hw, -⟩ := reach_inv hS hg hist
  rw [hs]
  exact congrArg Sp.dense hw

/-- the total score is that of Foster's theorem -/
theorem total_score {M : Matrix (Fin n) (Fin n) ℝ} (hM : Sparsifiable M) (hcon : Connected M) (hn : 0 < n)
    (hp : ∀ A, Aᵀ = A → IsPinv A (pinv A)) :
    ∑ l, edgeScore (resistanceOfMatrix pinv (combLap M)) ((sparsifyEdges M).get l) = n - 1 := by
  set R := resistanceOfMatrix pinv (combLap M) with hR
  have hres : ∀ i j, IsResistance M i j (R i j) := resistance_spec hM.nonneg hcon (hp _ (combLap_isSymm _))
  have hmet := C55_metric hM.nonneg hcon R hres
  have hRnn : ∀ i j, 0 ≤ R i j := by
    intro i j
    by_cases hij : i = j
    · subst hij; exact (hmet i i i).1.ge
    · exact ((hmet i j i).2.2.1 hij).le
  have hF := foster hM.nonneg hcon hn (hp _ (combLap_isSymm M))
  have hws : ∀ i j, wsym M i j = M i j := fun i j => by unfold wsym; rw [hM.undirected j i]; ring
  simp only [hws, ← hR] at hF
  have h1 := sum_edges M (fun i j w => max 0 w * max 0 (R i j))
  unfold edgeScore
  rw [h1]
  have h2 : ∀ i j, (if j ≤ i ∧ 1 / 10 ^ 10 ≤ M i j then max 0 (M i j) * max 0 (R i j) else 0) = if j ≤ i then M i j * R i j else 0 := by
    intro i j
    by_cases hji : j ≤ i
    · rcases hM.weights i j with h | h
      · rw [if_pos hji, if_neg, h, zero_mul]
        rw [h]; norm_num
      · rw [if_pos ⟨hji, h⟩, if_pos hji, max_eq_right (hM.nonneg i j), max_eq_right (hRnn i j)]
    · rw [if_neg hji, if_neg (fun h => hji h.1)]
  simp only [h2]
  have h3 : ∑ i, ∑ j, M i j * R i j = (∑ i, ∑ j, if j ≤ i then M i j * R i j else 0) + ∑ i, ∑ j, if j ≤ i then M i j * R i j else 0 := by
    have : (∑ i, ∑ j, if j ≤ i then M i j * R i j else 0) = ∑ i, ∑ j, if i ≤ j then M i j * R i j else 0 := by
      rw [Finset.sum_comm]
      refine Finset.sum_congr rfl fun i _ => Finset.sum_congr rfl fun j _ => ?_
      rw [hM.undirected j i, (hmet j i i).2.1]
    conv_rhs => rw [this]
    rw [← this]
    conv_rhs => enter [2]; rw [this]
    rw [← Finset.sum_add_distrib]
    refine Finset.sum_congr rfl fun i _ => ?_
    rw [← Finset.sum_add_distrib]
    refine Finset.sum_congr rfl fun j _ => ?_
    rcases lt_trichotomy i j with h | h | h
    · rw [if_neg (not_le.2 h), if_pos h.le, zero_add]
    · subst h; simp [hM.loopless]
    · rw [if_pos h.le, if_neg (not_le.2 h), add_zero]
  linarith

end Reduction

namespace Reduction

theorem weights_conserved {M W' : Matrix (Fin n) (Fin n) ℝ} (hW : Sparsifiable M) (hcon : Connected M)
    (hp : ∀ A, Aᵀ = A → IsPinv A (pinv A)) (hd : IsSampler (edgeCount M) draws) {pop : Pop n} {eps : ℝ} {maxiter : ℕ}
    (hw : sparsifyWeights pop pinv draws eps maxiter (combLap M) M = .ok W') :
    (∑ i, ∑ j, W' i j * resistanceOfMatrix pinv (combLap M) i j) / 2 = n - 1 := by
  obtain ⟨hn, -, -, -, i0, eps', -, -, ho⟩ := sparsifyWeights_ok hw
  have hres := resistance_spec (pinv := pinv) hW.nonneg hcon (hp _ (combLap_isSymm M))
  set Q := resistanceOfMatrix pinv (combLap M) with hQ
  have hsym : ∀ i j, Q i j = Q j i := fun i j => ((C55_metric hW.nonneg hcon Q hres) i j i).2.1
  obtain ⟨hne, hW'⟩ := sparsifyOnce_ok ho
  have hA := sum_mul_entries (fun k => ((sparsifyEdges M).get k).1) (fun k => ((sparsifyEdges M).get k).2.1)
    (fun k => ((draws i0 (numDraws n eps')).count k.1 : ℝ) * (max 0 ((sparsifyEdges M).get k).2.2 /
      ((numDraws n eps' : ℕ) * edgeProb Q (sparsifyEdges M) k))) (fun i j => Q i j)
  have hswap : (∑ i, ∑ j, (∑ k : Fin (sparsifyEdges M).length, if ((sparsifyEdges M).get k).1 = j ∧ ((sparsifyEdges M).get k).2.1 = i then
        ((draws i0 (numDraws n eps')).count k.1 : ℝ) * (max 0 ((sparsifyEdges M).get k).2.2 / ((numDraws n eps' : ℕ) * edgeProb Q (sparsifyEdges M) k)) else 0) * Q i j) =
      ∑ i, ∑ j, (∑ k : Fin (sparsifyEdges M).length, if ((sparsifyEdges M).get k).1 = i ∧ ((sparsifyEdges M).get k).2.1 = j then
        ((draws i0 (numDraws n eps')).count k.1 : ℝ) * (max 0 ((sparsifyEdges M).get k).2.2 / ((numDraws n eps' : ℕ) * edgeProb Q (sparsifyEdges M) k)) else 0) * Q i j := by
    rw [Finset.sum_comm]
    refine Finset.sum_congr rfl fun i _ => Finset.sum_congr rfl fun j _ => by rw [hsym j i]
  have htot : ∑ i, ∑ j, W' i j * Q i j =
      (∑ k : Fin (sparsifyEdges M).length, ((draws i0 (numDraws n eps')).count k.1 : ℝ) * (max 0 ((sparsifyEdges M).get k).2.2 / ((numDraws n eps' : ℕ) * edgeProb Q (sparsifyEdges M) k)) *
        Q ((sparsifyEdges M).get k).1 ((sparsifyEdges M).get k).2.1) +
      (∑ k : Fin (sparsifyEdges M).length, ((draws i0 (numDraws n eps')).count k.1 : ℝ) * (max 0 ((sparsifyEdges M).get k).2.2 / ((numDraws n eps' : ℕ) * edgeProb Q (sparsifyEdges M) k)) *
        Q ((sparsifyEdges M).get k).1 ((sparsifyEdges M).get k).2.1) := by
    simp only [hW', add_mul, Finset.sum_add_distrib]
    exact congrArg₂ (· + ·) hA (hswap.trans hA)
  rw [htot]
  have hT := total_score (pinv := pinv) hW hcon hn hp
  rw [← hQ] at hT
  have hterm : ∀ k : Fin (sparsifyEdges M).length,
      ((draws i0 (numDraws n eps')).count k.1 : ℝ) * (max 0 ((sparsifyEdges M).get k).2.2 / ((numDraws n eps' : ℕ) * edgeProb Q (sparsifyEdges M) k)) *
        Q ((sparsifyEdges M).get k).1 ((sparsifyEdges M).get k).2.1 =
      ((draws i0 (numDraws n eps')).count k.1 : ℝ) * ((n - 1) / (numDraws n eps' : ℕ)) := by
    intro k
    obtain ⟨h1, h2, h3, -⟩ := edgeProb_ne (hne k)
    have h4 := right_ne_zero_of_mul (hne k)
    unfold edgeProb at h4 ⊢
    rw [hT] at h4 ⊢
    unfold edgeScore at h4 ⊢
    rw [max_eq_right h2.le, max_eq_right h3.le] at h4 ⊢
    have h5 : (n : ℝ) - 1 ≠ 0 := fun h0 => h4 (by rw [h0, div_zero])
    have h6 : ((numDraws n eps' : ℕ) : ℝ) ≠ 0 := by exact_mod_cast h1.ne'
    exact spin_alg _ h2.ne' h3.ne' h6 h5
  simp only [hterm, ← Finset.sum_mul]
  obtain ⟨hd1, hd2⟩ := hd i0 (numDraws n eps')
  rw [← length_edges hW] at hd2
  rw [sum_count hd1 hd2]
  have hq : (numDraws n eps' : ℝ) ≠ 0 := by
    rcases Nat.eq_zero_or_pos (sparsifyEdges M).length with h0 | h0
    · intro hq
      have hn1 : (n : ℝ) - 1 = 0 := by
        rw [← hT]
        refine Finset.sum_eq_zero fun k _ => ?_
        exact absurd k.2 (by omega)
      have := (sparsifyWeights_ok hw).2.2.2.1
      exact this (hT.trans hn1)
    · have := (edgeProb_ne (hne ⟨0, h0⟩)).1
      exact_mod_cast this.ne'
  field_simp
  ring

end Reduction

/-- **Foster's sum is conserved**: for a connected graph, whatever the random generator returns, the weights of the sparsified
graph satisfy `1/2 sum_ij W'[i, j] R[i, j] = N - 1`, where `R` are the effective resistances of the original graph - the value
that the original weights have. -/
theorem C66_conservation (hS : Sound S) (hg : g.Built) (hist : List (Op n)) (hs : s = runAll S hist (GState.ofGraph g))
    (hW : Sparsifiable g.W.dense) (hcon : Connected g.W.dense) (hp : ∀ A, Aᵀ = A → IsPinv A (pinv A))
    (hd : IsSampler (edgeCount g.W.dense) draws) {pop : Pop n} {eps : ℝ} {maxiter : ℕ} {g' : Graph n ℝ}
    (h : graphSparsify pop pinv draws eps maxiter s = .ok g') (R : Fin n → Fin n → ℝ) (hR : ∀ i j, IsResistance g.W.dense i j (R i j)) :
    (∑ i, ∑ j, g'.W.dense i j * R i j) / 2 = n - 1 ∧ (∑ i, ∑ j, g.W.dense i j * R i j) / 2 = n - 1 := by
  obtain ⟨hc, hw, hb⟩ := weights_of_graph h
  obtain ⟨hn, -⟩ := sparsifyWeights_ok hw
  obtain ⟨hL, hWd⟩ := state_core hS hg hs hc
  set M := g.W.dense with hM
  have hres := resistance_spec (pinv := pinv) hW.nonneg hcon (hp _ (combLap_isSymm M))
  have hRe : ∀ i j, R i j = resistanceOfMatrix pinv (combLap M) i j := by
    intro i j
    obtain ⟨⟨v, hv⟩, -⟩ := hres i j
    rw [← (hres i j).2 v hv, ← (hR i j).2 v hv]
  simp only [hRe]
  set Q := resistanceOfMatrix pinv (combLap M) with hQ
  have hF := foster hW.nonneg hcon hn (hp _ (combLap_isSymm M))
  have hws : ∀ i j, wsym M i j = M i j := fun i j => by unfold wsym; rw [hW.undirected j i]; ring
  simp only [hws, ← hQ] at hF
  refine ⟨?_, by rw [hF]; ring⟩
  rw [hL, hWd] at hw
  exact weights_conserved hW hcon hp hd hw

namespace Reduction

/-- every edge has a positive probability -/
theorem edgeProb_eq {M : Matrix (Fin n) (Fin n) ℝ} (hM : Sparsifiable M) (hcon : Connected M) (hn : 2 ≤ n)
    (hp : ∀ A, Aᵀ = A → IsPinv A (pinv A)) (k : Fin (sparsifyEdges M).length) :
    let e := (sparsifyEdges M).get k
    e.2.1 < e.1 ∧ e.2.2 = M e.1 e.2.1 ∧ 0 < e.2.2 ∧ 0 < resistanceOfMatrix pinv (combLap M) e.1 e.2.1 ∧
    edgeProb (resistanceOfMatrix pinv (combLap M)) (sparsifyEdges M) k =
      M e.1 e.2.1 * resistanceOfMatrix pinv (combLap M) e.1 e.2.1 / (n - 1) := by
  intro e
  have hm : e ∈ sparsifyEdges M := List.get_mem _ _
  obtain ⟨h1, h2, h3⟩ := mem_sparsifyEdges.1 (show (e.1, e.2.1, e.2.2) ∈ _ from hm)
  have hpos : 0 < e.2.2 := by rw [h3]; exact lt_of_lt_of_le (by norm_num) h2
  have hlt : e.2.1 < e.1 := by
    refine lt_of_le_of_ne h1 fun he => ?_
    have : M e.1 e.2.1 = 0 := by rw [he]; exact hM.loopless _
    rw [h3, this] at hpos
    exact lt_irrefl _ hpos
  have hres := resistance_spec (pinv := pinv) hM.nonneg hcon (hp _ (combLap_isSymm M))
  have hR := ((C55_metric hM.nonneg hcon _ hres) e.1 e.2.1 e.1).2.2.1 hlt.ne'
  refine ⟨hlt, h3, hpos, hR, ?_⟩
  unfold edgeProb
  rw [total_score hM hcon (by omega) hp]
  unfold edgeScore
  change max 0 e.2.2 * max 0 (resistanceOfMatrix pinv (combLap M) e.1 e.2.1) / _ = _
  rw [max_eq_right hpos.le, max_eq_right hR.le, h3]

theorem sparsifyOnce_succeeds {M : Matrix (Fin n) (Fin n) ℝ} (hM : Sparsifiable M) (hcon : Connected M) (hn : 2 ≤ n)
    (hp : ∀ A, Aᵀ = A → IsPinv A (pinv A)) {q : ℕ} (hq : 0 < q) (res : List ℕ) :
    ∃ W', sparsifyOnce (resistanceOfMatrix pinv (combLap M)) (sparsifyEdges M) q res = .ok W' := by
  refine ⟨_, if_neg ?_⟩
  push Not
  intro k
  obtain ⟨-, h2, h3, h4, h5⟩ := edgeProb_eq hM hcon hn hp k
  rw [h5, ← h2]
  have : (0 : ℝ) < n - 1 := by
    have : (2 : ℝ) ≤ n := by exact_mod_cast hn
    linarith
  have hq' : (0 : ℝ) < q := by exact_mod_cast hq
  positivity

theorem sparsifyLoop_succeeds {M : Matrix (Fin n) (Fin n) ℝ} (hM : Sparsifiable M) (hcon : Connected M) (hn : 3 ≤ n)
    (hp : ∀ A, Aᵀ = A → IsPinv A (pinv A)) (pop : Pop n) (draws : ℕ → ℕ → List ℕ) {fuel : ℕ} :
    ∀ {i : ℕ} {eps : ℝ}, 1 / Real.sqrt n ≤ eps → eps < 1 →
      ∃ W', sparsifyLoop pop draws (resistanceOfMatrix pinv (combLap M)) (sparsifyEdges M) fuel i eps = .ok W' := by
  have hsq : 0 < 1 / Real.sqrt n := by
    have : (0 : ℝ) < n := by exact_mod_cast (by omega : 0 < n)
    positivity
  induction fuel with
  | zero =>
    intro i eps h1 h2
    unfold sparsifyLoop
    obtain ⟨W', hW'⟩ := sparsifyOnce_succeeds hM hcon (by omega) hp (numDraws_pos hn (by linarith : 0 < eps) h2) (draws i (numDraws n eps))
    rw [hW']
    obtain ⟨g1, e1, e2, -⟩ := Graph.ofCsr_ofDense W' (lt := .combinatorial) (.inl rfl)
    simp only [e1]
    obtain ⟨b, hb, -⟩ := isConnected_spec (ofGraph_inv (S := Classical.choose (exists_sound n)) g1 e2).1.pure
      (ofGraph_inv (S := Classical.choose (exists_sound n)) g1 e2).1.built (by omega) pop
    rw [hb]
    cases b <;> exact ⟨_, rfl⟩
  | succ fuel ih =>
    intro i eps h1 h2
    unfold sparsifyLoop
    obtain ⟨W', hW'⟩ := sparsifyOnce_succeeds hM hcon (by omega) hp (numDraws_pos hn (by linarith : 0 < eps) h2) (draws i (numDraws n eps))
    rw [hW']
    obtain ⟨g1, e1, e2, -⟩ := Graph.ofCsr_ofDense W' (lt := .combinatorial) (.inl rfl)
    simp only [e1]
    obtain ⟨b, hb, -⟩ := isConnected_spec (ofGraph_inv (S := Classical.choose (exists_sound n)) g1 e2).1.pure
      (ofGraph_inv (S := Classical.choose (exists_sound n)) g1 e2).1.built (by omega) pop
    rw [hb]
    cases b
    · exact ih (by linarith) (by linarith)
    · exact ⟨_, rfl⟩

theorem sparsifyWeights_eq {M : Matrix (Fin n) (Fin n) ℝ} (hM : Sparsifiable M) (hcon : Connected M) (hn : 2 ≤ n)
    (hp : ∀ A, Aᵀ = A → IsPinv A (pinv A)) (pop : Pop n) (draws : ℕ → ℕ → List ℕ) {eps : ℝ} (h1 : 1 / Real.sqrt n ≤ eps)
    (h2 : eps < 1) (fuel : ℕ) :
    sparsifyWeights pop pinv draws eps 0 (combLap M) M = .error .nameError ∧
    sparsifyWeights pop pinv draws eps (fuel + 1) (combLap M) M =
      sparsifyLoop pop draws (resistanceOfMatrix pinv (combLap M)) (sparsifyEdges M) fuel 0 eps := by
  have hne : ∑ l, edgeScore (resistanceOfMatrix pinv (combLap M)) ((sparsifyEdges M).get l) ≠ 0 := by
    rw [total_score hM hcon (by omega) hp]
    have : (2 : ℝ) ≤ n := by exact_mod_cast hn
    intro h0; linarith
  have hc : ¬ (n = 0 ∨ ¬ (1 / Real.sqrt n ≤ eps ∧ eps < 1)) := by
    push Not; exact ⟨by omega, h1, h2⟩
  constructor <;>
  · unfold sparsifyWeights
    rw [if_neg hc]
    exact if_neg hne

end Reduction

/-- **It always succeeds**: for every connected undirected graph with at least three vertices, no self-loop and weights of at
least `1e-10`, in any state where the Laplacian is combinatorial, every admissible epsilon and `maxiter >= 1`, `graph_sparsify`
returns a graph, whatever the random generator returns. -/
theorem C66_total (hS : Sound S) (hg : g.Built) (hist : List (Op n)) (hs : s = runAll S hist (GState.ofGraph g))
    (hc : s.lapType = .combinatorial) (hW : Sparsifiable g.W.dense) (hcon : Connected g.W.dense)
    (hp : ∀ A, Aᵀ = A → IsPinv A (pinv A)) (hn : 3 ≤ n) {eps : ℝ} (h1 : 1 / Real.sqrt n ≤ eps) (h2 : eps < 1) {maxiter : ℕ}
    (hm : 0 < maxiter) (pop : Pop n) (draws : ℕ → ℕ → List ℕ) :
    ∃ g', graphSparsify pop pinv draws eps maxiter s = .ok g' := by
  obtain ⟨hL, hWd⟩ := state_core hS hg hs hc
  obtain ⟨fuel, rfl⟩ : ∃ f, maxiter = f + 1 := ⟨maxiter - 1, by omega⟩
  obtain ⟨W', hW'⟩ := sparsifyLoop_succeeds hW hcon hn hp pop draws (fuel := fuel) (i := 0) h1 h2
  have h3 : sparsifyWeights pop pinv draws eps (fuel + 1) s.L s.W.dense = .ok W' := by
    rw [hL, hWd, (sparsifyWeights_eq hW hcon (by omega) hp pop draws h1 h2 fuel).2, hW']
  obtain ⟨g', e, -⟩ := graph_of_weights hc h3
  exact ⟨g', e⟩

namespace Reduction

/-- a disconnected result means that all the attempts were disconnected -/
theorem loop_disconnected {pop : Pop n} {draws : ℕ → ℕ → List ℕ} {R : Matrix (Fin n) (Fin n) ℝ} {E} (hn : 0 < n) {fuel : ℕ} :
    ∀ {i : ℕ} {eps : ℝ} {W'}, sparsifyLoop pop draws R E fuel i eps = .ok W' → ¬ StronglyConnected W' →
      ∀ j, j < fuel + 1 → ∃ Wj, sparsifyLoop pop (fun _ q => draws (i + j) q) R E 0 0
        ((fun e => e - (e - 1 / Real.sqrt n) / 2)^[j] eps) = .ok Wj ∧ ¬ StronglyConnected Wj := by
  have key : ∀ {fuel i : ℕ} {eps : ℝ} {W'}, sparsifyLoop pop draws R E fuel i eps = .ok W' → ¬ StronglyConnected W' →
      (∃ W, sparsifyLoop pop (fun _ q => draws i q) R E 0 0 eps = .ok W ∧ ¬ StronglyConnected W) ∧
      ∀ f', fuel = f' + 1 → sparsifyLoop pop draws R E f' (i + 1) (eps - (eps - 1 / Real.sqrt n) / 2) = .ok W' := by
    intro fuel i eps W' h hd
    have h0 : sparsifyLoop pop (fun _ q => draws i q) R E 0 0 eps = sparsifyLoop pop (fun _ q => draws i q) R E 0 0 eps := rfl
    unfold sparsifyLoop at h
    conv_rhs at h0 => unfold sparsifyLoop
    split at h
    · cases h
    · rename_i W hW
      rw [hW] at h0
      obtain ⟨g1, e1, e2, e3, -⟩ := Graph.ofCsr_ofDense W (lt := .combinatorial) (.inl rfl)
      have hi := ofGraph_inv (S := Classical.choose (exists_sound n)) g1 e2
      obtain ⟨b, hb, hbc, -⟩ := isConnected_spec hi.1.pure hi.1.built hn pop
      have hWW : (GState.ofGraph g1).W.dense = W := by unfold GState.W; rw [hi.2.1]; exact e3
      rw [hWW] at hbc
      simp only [e1, hb] at h h0
      cases b
      · simp only at h h0
        refine ⟨⟨W, h0, fun hc => by simpa using hbc.2 hc⟩, fun f' hf => ?_⟩
        subst hf
        exact h
      · simp only at h
        cases h
        exact absurd (hbc.1 rfl) hd
  induction fuel with
  | zero =>
    intro i eps W' h hd j hj
    have : j = 0 := by omega
    subst this
    exact (key h hd).1
  | succ fuel ih =>
    intro i eps W' h hd j hj
    obtain ⟨h1, h2⟩ := key h hd
    cases j with
    | zero => exact h1
    | succ j =>
      have := ih (h2 fuel rfl) hd j (by omega)
      rw [Function.iterate_succ_apply, show i + (j + 1) = i + 1 + j by omega]
      exact this

end Reduction

/-- **A disconnected result means that every attempt was disconnected**: `graph_sparsify` tries again, with a smaller epsilon,
until the result is connected; it returns a disconnected graph only after `maxiter` attempts, none of which - each is a call
with `maxiter=1` and the same random numbers - was connected. -/
theorem C66_connected_or_exhausted {pop : Pop n} {eps : ℝ} {maxiter : ℕ} {g' : Graph n ℝ}
    (h : graphSparsify pop pinv draws eps maxiter s = .ok g') (hdis : ¬ StronglyConnected g'.W.dense) (j : ℕ) (hj : j < maxiter) :
    ∃ gj, graphSparsify pop pinv (fun _ q => draws j q) ((fun e => e - (e - 1 / Real.sqrt n) / 2)^[j] eps) 1 s = .ok gj ∧
      ¬ StronglyConnected gj.W.dense := by
  obtain ⟨hc, hw, hb⟩ := weights_of_graph h
  obtain ⟨hn, -, ⟨h1, h2⟩, h3, -⟩ := sparsifyWeights_ok hw
  obtain ⟨fuel, rfl⟩ : ∃ f, maxiter = f + 1 := ⟨maxiter - 1, by omega⟩
  have hr : ∀ j, 1 / Real.sqrt n ≤ (fun e => e - (e - 1 / Real.sqrt n) / 2)^[j] eps ∧ (fun e => e - (e - 1 / Real.sqrt n) / 2)^[j] eps < 1 := by
    intro j
    induction j with
    | zero => exact ⟨h1, h2⟩
    | succ j ih => rw [Function.iterate_succ_apply']; exact ⟨by linarith [ih.1], by linarith [ih.1, ih.2]⟩
  have hloop : ∀ (draws : ℕ → ℕ → List ℕ) (eps : ℝ) (fuel : ℕ), 1 / Real.sqrt n ≤ eps → eps < 1 →
      sparsifyWeights pop pinv draws eps (fuel + 1) s.L s.W.dense =
        sparsifyLoop pop draws (resistanceOfMatrix pinv s.L) (sparsifyEdges s.W.dense) fuel 0 eps := by
    intro draws eps fuel h1 h2
    have hc : ¬ (n = 0 ∨ ¬ (1 / Real.sqrt n ≤ eps ∧ eps < 1)) := by
      push Not; exact ⟨by omega, h1, h2⟩
    unfold sparsifyWeights
    rw [if_neg hc]
    exact if_neg h3
  rw [hloop _ _ _ h1 h2] at hw
  obtain ⟨Wj, e1, e2⟩ := loop_disconnected hn hw hdis j hj
  rw [zero_add, ← hloop _ _ 0 (hr j).1 (hr j).2] at e1
  obtain ⟨gj, e3, -, e4, -⟩ := graph_of_weights hc e1
  exact ⟨gj, e3, by rw [e4]; exact e2⟩

namespace Reduction

theorem count_ofFn {q m : ℕ} (d : Fin q → Fin m) (k : Fin m) :
    ((List.ofFn fun t => (d t).1).count k.1 : ℝ) = ∑ t, if d t = k then (1 : ℝ) else 0 := by
  have : ∀ l : List ℕ, (l.count k.1 : ℝ) = (l.map fun x => if x = k.1 then (1 : ℝ) else 0).sum := by
    intro l
    induction l with
    | nil => simp
    | cons a t ih =>
      rw [List.count_cons, List.map_cons, List.sum_cons, ← ih]
      by_cases h : a = k.1 <;> simp [h, add_comm]
  rw [this, List.map_ofFn, List.sum_ofFn]
  refine Finset.sum_congr rfl fun t _ => ?_
  simp only [Function.comp_apply, Fin.ext_iff]

/-- the expected number of times an edge is drawn -/
theorem expected_count {q m : ℕ} {p : Fin m → ℝ} (hp : ∑ k, p k = 1) (k : Fin m) :
    ∑ d : Fin q → Fin m, (∏ t, p (d t)) * ((List.ofFn fun t => (d t).1).count k.1 : ℝ) = q * p k := by
  simp only [count_ofFn, Finset.mul_sum]
  rw [Finset.sum_comm]
  have hone : ∀ t : Fin q, ∑ d : Fin q → Fin m, (∏ t', p (d t')) * (if d t = k then (1 : ℝ) else 0) = p k := by
    intro t
    have h1 : ∀ d : Fin q → Fin m, (∏ t', p (d t')) * (if d t = k then (1 : ℝ) else 0) =
        ∏ t', (fun t' x => p x * if t' = t then (if x = k then (1 : ℝ) else 0) else 1) t' (d t') := by
      intro d
      simp only [Finset.prod_mul_distrib]
      congr 1
      rw [Finset.prod_eq_single t]
      · rw [if_pos rfl]
      · intro b _ hb; rw [if_neg hb]
      · simp
    have h2 := Finset.prod_univ_sum (fun _ : Fin q => (Finset.univ : Finset (Fin m)))
      (fun t' x => p x * if t' = t then (if x = k then (1 : ℝ) else 0) else 1)
    rw [Fintype.piFinset_univ] at h2
    rw [Finset.sum_congr rfl fun d _ => h1 d]
    refine h2.symm.trans ?_
    rw [Finset.prod_eq_single t]
    · simp
    · intro b _ hb
      simp [hb, hp]
    · simp
  rw [Finset.sum_congr rfl fun t _ => hone t]
  simp

end Reduction

/-- **The sparsification is unbiased**: for a connected graph as above, one attempt (`maxiter=1`) draws `q >= 1` edges
independently, the edge `k` with probability `p k` = weight times effective resistance over `N - 1` (these are probabilities);
each outcome `d` of the draws gives a graph, and the expectation of its weight matrix is the weight matrix of the graph. -/
theorem C66_unbiased (hS : Sound S) (hg : g.Built) (hist : List (Op n)) (hs : s = runAll S hist (GState.ofGraph g))
    (hc : s.lapType = .combinatorial) (hW : Sparsifiable g.W.dense) (hcon : Connected g.W.dense)
    (hp : ∀ A, Aᵀ = A → IsPinv A (pinv A)) (hn : 3 ≤ n) {eps : ℝ} (h1 : 1 / Real.sqrt n ≤ eps) (h2 : eps < 1) (pop : Pop n) :
    ∃ (q m : ℕ) (e : Fin m → Fin n × Fin n) (p : Fin m → ℝ) (G' : (Fin q → Fin m) → Graph n ℝ),
      0 < q ∧ Function.Injective e ∧ (∀ i j, (∃ k, e k = (i, j)) ↔ j < i ∧ g.W.dense i j ≠ 0) ∧
      (∀ k r, IsResistance g.W.dense (e k).1 (e k).2 r → p k = g.W.dense (e k).1 (e k).2 * r / (n - 1)) ∧
      (∀ k, 0 < p k) ∧ ∑ k, p k = 1 ∧
      (∀ d, graphSparsify pop pinv (fun _ _ => List.ofFn fun t => (d t).1) eps 1 s = .ok (G' d)) ∧
      ∀ i j, ∑ d, (∏ t, p (d t)) * (G' d).W.dense i j = g.W.dense i j := by
  obtain ⟨hL, hWd⟩ := state_core hS hg hs hc
  set M := g.W.dense with hMd
  set Q := resistanceOfMatrix pinv (combLap M) with hQ
  have hsq : 0 < 1 / Real.sqrt n := by
    have : (0 : ℝ) < n := by exact_mod_cast (by omega : 0 < n)
    positivity
  have hn1 : (0 : ℝ) < n - 1 := by
    have : (3 : ℝ) ≤ n := by exact_mod_cast hn
    linarith
  set q := numDraws n eps with hq
  have hqpos : 0 < q := numDraws_pos hn (by linarith) h2
  have hedge := edgeProb_eq (pinv := pinv) hW hcon (by omega : 2 ≤ n) hp
  set E := sparsifyEdges M with hE
  have hres := resistance_spec (pinv := pinv) hW.nonneg hcon (hp _ (combLap_isSymm M))
  have hppos : ∀ k, 0 < edgeProb Q E k := by
    intro k
    obtain ⟨-, h2, h3, h4, h5⟩ := hedge k
    rw [h5, ← h2]
    positivity
  have hsum : ∑ k, edgeProb Q E k = 1 := by
    unfold edgeProb
    rw [← Finset.sum_div, total_score hW hcon (by omega) hp, div_self hn1.ne']
  have hG : ∀ d : Fin q → Fin E.length, ∃ g', graphSparsify pop pinv (fun _ _ => List.ofFn fun t => (d t).1) eps 1 s = .ok g' :=
    fun d => C66_total hS hg hist hs hc hW hcon hp hn h1 h2 Nat.one_pos pop _
  choose G' hG' using hG
  have hwts : ∀ d, sparsifyOnce Q E q (List.ofFn fun t => (d t).1) = .ok (G' d).W.dense := by
    intro d
    obtain ⟨-, hw, -⟩ := weights_of_graph (hG' d)
    rw [hL, hWd, (sparsifyWeights_eq hW hcon (by omega) hp pop _ h1 h2 0).2] at hw
    unfold sparsifyLoop at hw
    obtain ⟨W', hW'⟩ := sparsifyOnce_succeeds (pinv := pinv) hW hcon (by omega : 2 ≤ n) hp hqpos (List.ofFn fun t => (d t).1)
    rw [← hq, hW'] at hw
    rw [hW']
    obtain ⟨g1, e1, e2, -⟩ := Graph.ofCsr_ofDense W' (lt := .combinatorial) (.inl rfl)
    obtain ⟨b, hb, -⟩ := isConnected_spec (ofGraph_inv (S := S) g1 e2).1.pure (ofGraph_inv (S := S) g1 e2).1.built (by omega) pop
    simp only [e1, hb] at hw
    cases b <;> exact hw
  have hget : ∀ k, (E.get k) = ((E.get k).1, (E.get k).2.1, M (E.get k).1 (E.get k).2.1) := by
    intro k
    have := (hedge k).2.1
    rw [← this]
  refine ⟨q, E.length, fun k => ((E.get k).1, (E.get k).2.1), edgeProb Q E, G', hqpos, ?_, ?_, ?_, hppos, hsum, hG', ?_⟩
  · intro k l hkl
    simp only [Prod.mk.injEq] at hkl
    have : E.get k = E.get l := by rw [hget k, hget l, hkl.1, hkl.2]
    exact (List.nodup_iff_injective_get.1 (sparsifyEdges_nodup M)) this
  · intro i j
    constructor
    · rintro ⟨k, hk⟩
      simp only [Prod.mk.injEq] at hk
      obtain ⟨a, b, c, -⟩ := hedge k
      rw [b] at c
      rw [hk.1, hk.2] at a c
      exact ⟨a, c.ne'⟩
    · rintro ⟨hji, hne⟩
      have : (i, j, M i j) ∈ E := mem_sparsifyEdges.2 ⟨hji.le, (hW.ne_iff i j).2 hne, rfl⟩
      obtain ⟨k, hk⟩ := List.get_of_mem this
      exact ⟨k, by simp only [hk]⟩
  · intro k r hr
    obtain ⟨-, -, -, -, h5⟩ := hedge k
    rw [h5]
    obtain ⟨⟨v, hv⟩, -⟩ := hres (E.get k).1 (E.get k).2.1
    rw [← (hres (E.get k).1 (E.get k).2.1).2 v hv, ← hr.2 v hv]
  · intro i j
    have hw : ∀ k : Fin E.length, max 0 (E.get k).2.2 / ((q : ℕ) * edgeProb Q E k) * (q * edgeProb Q E k) = M (E.get k).1 (E.get k).2.1 := by
      intro k
      obtain ⟨-, b, c, -⟩ := hedge k
      have hq' : (q : ℝ) ≠ 0 := by exact_mod_cast hqpos.ne'
      rw [div_mul_cancel₀ _ (mul_ne_zero hq' (hppos k).ne'), max_eq_right c.le, b]
    have hlow : ∀ i j, ∑ d : Fin q → Fin E.length, (∏ t, edgeProb Q E (d t)) * (∑ k : Fin E.length, if (E.get k).1 = i ∧ (E.get k).2.1 = j then
        ((List.ofFn fun t => (d t).1).count k.1 : ℝ) * (max 0 (E.get k).2.2 / ((q : ℕ) * edgeProb Q E k)) else 0) =
        if j < i then M i j else 0 := by
      intro i j
      have h3 : ∀ d : Fin q → Fin E.length, (∏ t, edgeProb Q E (d t)) * (∑ k : Fin E.length, if (E.get k).1 = i ∧ (E.get k).2.1 = j then
          ((List.ofFn fun t => (d t).1).count k.1 : ℝ) * (max 0 (E.get k).2.2 / ((q : ℕ) * edgeProb Q E k)) else 0) =
          ∑ k : Fin E.length, if (E.get k).1 = i ∧ (E.get k).2.1 = j then max 0 (E.get k).2.2 / ((q : ℕ) * edgeProb Q E k) *
            ((∏ t, edgeProb Q E (d t)) * ((List.ofFn fun t => (d t).1).count k.1 : ℝ)) else 0 := by
        intro d
        rw [Finset.mul_sum]
        refine Finset.sum_congr rfl fun k _ => ?_
        split <;> ring
      rw [Finset.sum_congr rfl fun d _ => h3 d, Finset.sum_comm]
      have h4 : ∀ k : Fin E.length, (∑ d : Fin q → Fin E.length, if (E.get k).1 = i ∧ (E.get k).2.1 = j then max 0 (E.get k).2.2 / ((q : ℕ) * edgeProb Q E k) *
            ((∏ t, edgeProb Q E (d t)) * ((List.ofFn fun t => (d t).1).count k.1 : ℝ)) else 0) =
            if (E.get k).1 = i ∧ (E.get k).2.1 = j then M i j else 0 := by
        intro k
        by_cases hk : (E.get k).1 = i ∧ (E.get k).2.1 = j
        · simp only [if_pos hk]
          rw [← Finset.mul_sum, expected_count hsum, hw, hk.1, hk.2]
        · simp only [if_neg hk, Finset.sum_const_zero]
      rw [Finset.sum_congr rfl fun k _ => h4 k]
      have h5 := sum_edges M (fun a b _ => if a = i ∧ b = j then M i j else 0)
      refine h5.trans ?_
      rw [Finset.sum_eq_single i, Finset.sum_eq_single j]
      · by_cases hji : j < i
        · rw [if_pos hji]
          rcases hW.weights i j with h | h
          · rw [h]; simp
          · rw [if_pos ⟨hji.le, h⟩, if_pos ⟨rfl, rfl⟩]
        · rw [if_neg hji]
          by_cases hc : j ≤ i ∧ 1 / 10 ^ 10 ≤ M i j
          · have : i = j := le_antisymm (not_lt.1 hji) hc.1
            subst this
            rw [if_pos hc, if_pos ⟨rfl, rfl⟩, hW.loopless]
          · rw [if_neg hc]
      · intro b _ hb; simp [hb]
      · simp
      · intro b _ hb; simp [hb]
      · simp
    have hW' : ∀ d, (G' d).W.dense i j = _ := fun d => (sparsifyOnce_ok (hwts d)).2 i j
    simp only [hW', mul_add, Finset.sum_add_distrib]
    refine (congrArg₂ (· + ·) (hlow i j) (hlow j i)).trans ?_
    rcases lt_trichotomy i j with h | h | h
    · simp only [if_neg h.asymm, if_pos h]; rw [zero_add, hW.undirected j i]
    · subst h; simp [hW.loopless]
    · simp only [if_neg h.asymm, if_pos h]; rw [add_zero]

/-- **Wrong arguments**: an epsilon out of `[1/sqrt(N), 1)` raises ValueError, a Laplacian that is not combinatorial
NotImplementedError. -/
theorem C66_errors (pop : Pop n) (eps : ℝ) (maxiter : ℕ) :
    (s.lapType ≠ .combinatorial → graphSparsify pop pinv draws eps maxiter s = .error .notImplementedError) ∧
    (s.lapType = .combinatorial → ¬ (1 / Real.sqrt n ≤ eps ∧ eps < 1) →
      graphSparsify pop pinv draws eps maxiter s = .error .valueError) := by
  constructor
  · intro h; exact if_pos h
  · intro h h'
    unfold graphSparsify sparsifyWeights
    rw [if_neg (not_not.2 h), if_pos (.inr h')]

/-- Violation: for a connected graph with two vertices no epsilon is accepted: the number of draws is rounded to zero and the
division `0 / 0` makes the constructor raise ValueError. -/
theorem C66_two_vertices_violated {g : Graph 2 ℝ} {S : Solvers 2} (hS : Sound S) (hg : g.Built) (hist : List (Op 2)) {s : GState 2}
    (hs : s = runAll S hist (GState.ofGraph g)) (hc : s.lapType = .combinatorial) (hW : Sparsifiable g.W.dense)
    (hcon : Connected g.W.dense) {pinv : Matrix (Fin 2) (Fin 2) ℝ → Matrix (Fin 2) (Fin 2) ℝ} (hp : ∀ A, Aᵀ = A → IsPinv A (pinv A))
    (eps : ℝ) (maxiter : ℕ) (hm : 0 < maxiter) (pop : Pop 2) (draws : ℕ → ℕ → List ℕ) :
    graphSparsify pop pinv draws eps maxiter s = .error .valueError := by
  by_cases h : 1 / Real.sqrt ((2 : ℕ) : ℝ) ≤ eps ∧ eps < 1
  · obtain ⟨hL, hWd⟩ := state_core hS hg hs hc
    obtain ⟨fuel, rfl⟩ : ∃ f, maxiter = f + 1 := ⟨maxiter - 1, by omega⟩
    have hE : 0 < (sparsifyEdges g.W.dense).length := by
      by_contra h0
      have h1 := total_score (pinv := pinv) hW hcon (by norm_num) hp
      rw [Finset.sum_eq_zero fun k _ => absurd k.2 (by omega)] at h1
      norm_num at h1
    have hq : numDraws 2 eps = 0 := numDraws_two (by simpa using h.1)
    have hone : sparsifyOnce (resistanceOfMatrix pinv (combLap g.W.dense)) (sparsifyEdges g.W.dense) (numDraws 2 eps) (draws 0 (numDraws 2 eps)) =
        .error .valueError := if_pos ⟨⟨0, hE⟩, by rw [hq]; simp⟩
    unfold graphSparsify
    rw [if_neg (not_not.2 hc), hL, hWd, (sparsifyWeights_eq hW hcon le_rfl hp pop draws h.1 h.2 fuel).2]
    unfold sparsifyLoop
    rw [hone]
  · exact (C66_errors pop eps maxiter).2 hc h

/-- Violation: for a Laplacian matrix the result is not a Laplacian: its diagonal is zero, its other entries are not positive
and its rows do not sum to zero (they sum to the opposite of the new degrees). -/
theorem C66_matrix_violated {pop : Pop n} {eps : ℝ} {maxiter : ℕ} {M L' : Matrix (Fin n) (Fin n) ℝ} (hM : Sparsifiable M)
    (hcon : Connected M) (hn : 2 ≤ n) (hp : ∀ A, Aᵀ = A → IsPinv A (pinv A)) (hd : IsSampler (edgeCount M) draws)
    (h : matrixSparsify pop pinv draws eps maxiter (combLap M) = .ok L') :
    (∀ i, L' i i = 0) ∧ (∀ i j, L' i j ≤ 0) ∧ ∑ i, ∑ j, L' i j < 0 := by
  have hdiag : Matrix.diagonal (fun i => combLap M i i) - combLap M = M := by
    ext i j
    have hoff : ∀ i j, i ≠ j → combLap M i j = - M i j := by
      intro i j hij
      have h1 := congrFun (congrArg (combLap M *ᵥ ·) (rfl : (Pi.single j 1 : Fin n → ℝ) = Pi.single j 1)) i
      simp only [Matrix.mulVec_single_one] at h1
      have h2 := combLap_mulVec M (Pi.single j 1) i
      rw [Matrix.mulVec_single_one] at h2
      change combLap M i j = _ at h2
      rw [h2, Finset.sum_eq_single j]
      · simp only [wsym, Pi.single_eq_same, Pi.single_eq_of_ne hij]; rw [hM.undirected j i]; ring
      · intro b _ hb; simp [Pi.single_eq_of_ne hij, Pi.single_eq_of_ne hb]
      · simp
    by_cases hij : i = j
    · subst hij; simp [hM.loopless]
    · simp [hij, hoff i j hij]
  unfold matrixSparsify at h
  rw [hdiag] at h
  split at h
  · cases h
  · rename_i W' hw
    have := Except.ok.inj h
    subst this
    obtain ⟨-, -, -, -, i0, eps', -, -, ho⟩ := sparsifyWeights_ok hw
    obtain ⟨-, hnn, hz, -⟩ := weights_core ho
    have hval : ∀ i j, sparserL W' i j = - W' i j := by
      intro i j
      unfold sparserL
      by_cases hij : i = j
      · subst hij; simp [hz]
      · simp [hij]
    have hcons := weights_conserved hM hcon hp hd hw
    refine ⟨fun i => by rw [hval, hz, neg_zero], fun i j => by rw [hval]; linarith [hnn i j], ?_⟩
    simp only [hval, Finset.sum_neg_distrib, Left.neg_neg_iff]
    by_contra hc
    have h0 : ∀ i j, W' i j = 0 := by
      have h1 := (Finset.sum_eq_zero_iff_of_nonneg fun i _ => Finset.sum_nonneg fun j _ => hnn i j).1
        (le_antisymm (not_lt.1 hc) (Finset.sum_nonneg fun i _ => Finset.sum_nonneg fun j _ => hnn i j))
      intro i j
      exact (Finset.sum_eq_zero_iff_of_nonneg fun j _ => hnn i j).1 (h1 i (Finset.mem_univ _)) j (Finset.mem_univ _)
    simp only [h0, zero_mul, Finset.sum_const_zero, zero_div] at hcons
    have : (2 : ℝ) ≤ n := by exact_mod_cast hn
    linarith

end Main

/-- Non-vacuity: the path with four vertices satisfies the hypotheses of the theorems above, with epsilon = 1/2 and a sampler
that always returns the first edge. -/
example : ∃ (g : Graph 4 ℝ) (S : Solvers 4) (s : GState 4) (pinv : Matrix (Fin 4) (Fin 4) ℝ → Matrix (Fin 4) (Fin 4) ℝ)
    (draws : ℕ → ℕ → List ℕ), g.Built ∧ Sound S ∧ s = runAll S [.computeFourierBasis none] (GState.ofGraph g) ∧
    s.lapType = .combinatorial ∧ Sparsifiable g.W.dense ∧ Connected g.W.dense ∧ (∀ A, Aᵀ = A → IsPinv A (pinv A)) ∧
    IsSampler (edgeCount g.W.dense) draws ∧ 1 / Real.sqrt (4 : ℕ) ≤ 1 / 2 ∧
    ∀ pop, ∃ g', graphSparsify pop pinv draws (1 / 2) 10 s = .ok g' := by
  obtain ⟨g, hg, hd, S, hS, s, hs, hk, -, l, ⟨hl0, hc, -⟩, -⟩ :=
    exists_setup path4 path4_nonneg (i := 0) (j := 1) (by decide) (by simp [path4])
  obtain ⟨pinv, hp⟩ := exists_pinv (n := 4)
  have hsp : Sparsifiable path4 := by
    refine ⟨fun i j => ?_, fun i => ?_, fun i j => ?_⟩
    · fin_cases i <;> fin_cases j <;> simp [path4]
    · fin_cases i <;> simp [path4]
    · fin_cases i <;> fin_cases j <;> simp [path4] <;> norm_num
  have hsq : 1 / Real.sqrt (4 : ℕ) ≤ 1 / 2 := by
    rw [show ((4 : ℕ) : ℝ) = 2 ^ 2 by norm_num, Real.sqrt_sq (by norm_num)]
  have hcount : 0 < edgeCount path4 := by
    unfold edgeCount
    refine Finset.card_pos.2 ⟨((1 : Fin 4), (0 : Fin 4)), ?_⟩
    simp [path4]
  rw [← hd] at hsp hcount
  have hcon : Connected g.W.dense := by rw [hd]; exact path4_connected
  refine ⟨g, S, s, pinv, fun _ q => List.replicate q 0, hg, hS, hs, hc, hsp, hcon, hp, ?_, hsq, fun pop => ?_⟩
  · intro i q
    refine ⟨by simp, fun k hk => ?_⟩
    rw [(List.mem_replicate.1 hk).2]
    exact hcount
  · exact C66_total hS hg _ hs hc hsp hcon hp (by norm_num) hsq (by norm_num) (by norm_num) pop _

end PyGSP
