import Verif.Props.BlockModel
import Verif.Lemmas.RandomDraws

/-!
# C123: the distribution of StochasticBlockModel and ErdosRenyi
-/

namespace PyGSP

open Matrix Spec Gen Random MeasureTheory

variable {N k : ℕ}

/-- The pairs of vertices that may be linked: only `j ≤ i` for an undirected graph, only `i ≠ j` without self-loops. -/
abbrev Spec.Pair (N : ℕ) (directed loops : Bool) : Type := { e : Fin N × Fin N // (e.1 ≠ e.2 ∨ loops = true) ∧ (e.2 ≤ e.1 ∨ directed = true) }

/-- The matrices of zeros and ones that a sample may be: symmetric unless directed, with a zero diagonal unless there are self-loops. -/
structure Spec.IsSample (directed loops : Bool) (A : Matrix (Fin N) (Fin N) ℝ) : Prop where
  binary : ∀ i j, A i j = 0 ∨ A i j = 1
  symm : directed = false → ∀ i j, A i j = A j i
  loopless : loops = false → ∀ i, A i i = 0

open Classical in
/-- The probability of a graph: every pair is linked with the probability of its two blocks, independently. -/
noncomputable def Spec.probability (M : Matrix (Fin k) (Fin k) ℝ) (z : Fin N → Fin k) (directed loops : Bool) (A : Matrix (Fin N) (Fin N) ℝ) : ℝ :=
  ∏ e : Pair N directed loops, if A e.1.1 e.1.2 = 1 then M (z e.1.1) (z e.1.2) else 1 - M (z e.1.1) (z e.1.2)

namespace RandomGraph

variable (M : Matrix (Fin k) (Fin k) ℝ) (z : Fin N → Fin k) (directed loops : Bool) (u : ℕ → ℝ)

/-- the random number that decides the pair in the attempt `a` -/
noncomputable def edgeIdx (a : ℕ) (e : Pair N directed loops) : ℕ := callIndex N directed loops (a * sampleCalls N directed loops) e.1.1.1 e.1.2.1

/-- the probability of the pair -/
def prob (e : Pair N directed loops) : ℝ := M (z e.1.1) (z e.1.2)

theorem drawn (e : Pair N directed loops) : Drawn directed loops e.1.1.1 e.1.2.1 := ⟨e.2.1.imp (fun h h' => h (Fin.ext h')) id, e.2.2⟩

theorem drawn_iff (i j : Fin N) : Drawn directed loops i.1 j.1 ↔ (i ≠ j ∨ loops = true) ∧ (j ≤ i ∨ directed = true) := by
  unfold Drawn
  rw [Ne, Ne, Fin.ext_iff]
  rfl

theorem edgeIdx_inj (a : ℕ) (e : Pair N directed loops) (a' : ℕ) (e' : Pair N directed loops)
    (h : edgeIdx directed loops a e = edgeIdx directed loops a' e') : a = a' ∧ e = e' := by
  have hlt : ∀ e : Pair N directed loops, Nat.count (DrawnAt N directed loops) (e.1.2.1 * N + e.1.1.1) < sampleCalls N directed loops := by
    intro e
    have p := step_pair (N := N) (c := e.1.2.1) e.1.1.2
    refine Nat.count_strict_mono (by unfold DrawnAt; rw [p.1, p.2]; exact drawn directed loops e) ?_
    have h1 := e.1.1.2
    have h2 := e.1.2.2
    calc e.1.2.1 * N + e.1.1.1 < e.1.2.1 * N + N := by omega
      _ = (e.1.2.1 + 1) * N := by ring
      _ ≤ N * N := Nat.mul_le_mul_right _ (by omega)
  have h0 := h
  unfold edgeIdx callIndex at h
  have l1 := hlt e
  have l2 := hlt e'
  set m := sampleCalls N directed loops
  have ha : a = a' := by
    have e1 : (a * m + Nat.count (DrawnAt N directed loops) (e.1.2.1 * N + e.1.1.1)) / m = a := by
      rw [Nat.mul_comm, Nat.mul_add_div (by omega), Nat.div_eq_of_lt l1, Nat.add_zero]
    have e2 : (a' * m + Nat.count (DrawnAt N directed loops) (e'.1.2.1 * N + e'.1.1.1)) / m = a' := by
      rw [Nat.mul_comm, Nat.mul_add_div (by omega), Nat.div_eq_of_lt l2, Nat.add_zero]
    rw [← e1, ← e2, h]
  subst ha
  have := callIndex_inj directed loops (drawn directed loops e) (drawn directed loops e') h0
  exact ⟨rfl, Subtype.ext (Prod.ext this.1 this.2)⟩

/-- the matrix of a set of pairs -/
noncomputable def matOf (C : Finset (Pair N directed loops)) : Matrix (Fin N) (Fin N) ℝ :=
  open Classical in
  Matrix.of fun i j => if directed = true ∨ j ≤ i then (if ∃ e ∈ C, e.1 = (i, j) then 1 else 0) else (if ∃ e ∈ C, e.1 = (j, i) then 1 else 0)

theorem sample_eq (a : ℕ) : sampleW M z directed loops u (a * sampleCalls N directed loops) =
    matOf directed loops (successes (edgeIdx directed loops) (prob M z directed loops) u a) := by
  classical
  have key : ∀ i j : Fin N, (Drawn directed loops i.1 j.1 ∧ u (callIndex N directed loops (a * sampleCalls N directed loops) i.1 j.1) < M (z i) (z j)) ↔
      ∃ e ∈ successes (edgeIdx directed loops) (prob M z directed loops) u a, e.1 = (i, j) := by
    intro i j
    constructor
    · rintro ⟨h1, h2⟩
      refine ⟨⟨(i, j), (drawn_iff directed loops i j).1 h1⟩, ?_, rfl⟩
      rw [mem_successes]
      exact h2
    · rintro ⟨e, he, h⟩
      rw [mem_successes] at he
      unfold edgeIdx prob at he
      have hd := drawn directed loops e
      rw [h] at he hd
      exact ⟨hd, he⟩
  ext i j
  rw [sampleW_apply]
  simp only [matOf, Matrix.of_apply, key]
  by_cases hd : directed = true
  · rw [if_pos hd, if_pos (show directed = true ∨ j ≤ i from .inl hd)]
  · rw [if_neg hd]
    by_cases hji : j ≤ i
    · rw [if_pos hji, if_pos (show directed = true ∨ j ≤ i from .inr hji)]
    · rw [if_neg hji, if_neg (not_or.2 ⟨hd, hji⟩)]

open Classical in
/-- the pairs that are linked -/
noncomputable def edgeSet (A : Matrix (Fin N) (Fin N) ℝ) : Finset (Pair N directed loops) := Finset.univ.filter fun e => A e.1.1 e.1.2 = 1

theorem matOf_pair (C : Finset (Pair N directed loops)) (e : Pair N directed loops) : matOf directed loops C e.1.1 e.1.2 = 1 ↔ e ∈ C := by
  classical
  have h : directed = true ∨ e.1.2 ≤ e.1.1 := e.2.2.symm
  simp only [matOf, Matrix.of_apply, if_pos h]
  constructor
  · intro h1
    by_contra hc
    rw [if_neg] at h1
    · norm_num at h1
    · rintro ⟨e', he', h2⟩
      exact hc (Subtype.ext h2 ▸ he')
  · intro h1
    rw [if_pos ⟨e, h1, rfl⟩]

theorem matOf_edgeSet (C : Finset (Pair N directed loops)) : edgeSet directed loops (matOf directed loops C) = C := by
  ext e
  simp only [edgeSet, Finset.mem_filter, Finset.mem_univ, true_and, matOf_pair]

theorem edgeSet_matOf {A : Matrix (Fin N) (Fin N) ℝ} (hA : IsSample directed loops A) : matOf directed loops (edgeSet directed loops A) = A := by
  classical
  have key : ∀ i j : Fin N, (j ≤ i ∨ directed = true) → (if ∃ e ∈ edgeSet directed loops A, e.1 = (i, j) then (1 : ℝ) else 0) = A i j := by
    intro i j h
    by_cases h1 : A i j = 1
    · rw [h1, if_pos]
      have h2 : i ≠ j ∨ loops = true := by
        by_contra hc
        push Not at hc
        have := hA.loopless (by simpa using hc.2) i
        rw [hc.1] at this h1
        rw [this] at h1
        norm_num at h1
      exact ⟨⟨(i, j), h2, h⟩, by simpa [edgeSet] using h1, rfl⟩
    · rw [(hA.binary i j).resolve_right h1, if_neg]
      rintro ⟨e, he, h2⟩
      simp only [edgeSet, Finset.mem_filter, Finset.mem_univ, true_and] at he
      rw [h2] at he
      exact h1 he
  ext i j
  simp only [matOf, Matrix.of_apply]
  split
  · rename_i h; exact key i j h.symm
  · rename_i h
    push Not at h
    rw [key j i (.inl h.2.le), hA.symm (by simpa using h.1)]

theorem matOf_eq {A : Matrix (Fin N) (Fin N) ℝ} (hA : IsSample directed loops A) (C : Finset (Pair N directed loops)) :
    matOf directed loops C = A ↔ C = edgeSet directed loops A :=
  ⟨fun h => by rw [← h, matOf_edgeSet], fun h => by rw [h, edgeSet_matOf directed loops hA]⟩

theorem law_edgeSet (A : Matrix (Fin N) (Fin N) ℝ) : law (prob M z directed loops) (edgeSet directed loops A) = probability M z directed loops A := by
  unfold law probability
  refine Finset.prod_congr rfl fun e _ => ?_
  simp only [edgeSet, Finset.mem_filter, Finset.mem_univ, true_and]
  rfl

variable {M z directed loops}

theorem prob_mem (hM : ∀ i j, 0 ≤ M i j ∧ M i j ≤ 1) (e : Pair N directed loops) : 0 ≤ prob M z directed loops e ∧ prob M z directed loops e ≤ 1 := hM _ _

/-- the result without the option `connected` -/
theorem plain (hM : ∀ i j, 0 ≤ M i j ∧ M i j ≤ 1) {lt : LapType} (hlt : lt = .combinatorial ∨ lt = .normalized) (pop : ℕ → Pop N) {nTry : Option ℕ}
    (ht : nTry ≠ some 0) (u : ℕ → ℝ) : ∃ g, sbm M z directed loops u false pop nTry lt = some (.ok g) ∧
      g.W.dense = matOf directed loops (successes (edgeIdx directed loops) (prob M z directed loops) u 0) := by
  classical
  obtain ⟨g, g1, -, g3, -⟩ := Graph.ofCsr_canonical _ (Sp.canonical_ofDense (sampleW M z directed loops u 0)) hlt
  rw [Sp.dense_ofDense] at g3
  refine ⟨g, ?_, by rw [g3, ← sample_eq, Nat.zero_mul]⟩
  have h : ∀ t, sbmTry M z directed loops u false pop (t + 1) 0 = .ok (some (sampleW M z directed loops u 0)) := fun t => sbmTry_unconnected M z directed loops u pop t 0
  unfold sbm
  rw [(sbmCheck_iff M).2 hM]
  simp only
  cases nTry with
  | some t =>
    cases t with
    | zero => exact absurd rfl ht
    | succ t => simp only [h, sbmFinish, g1]
  | none =>
    have hex : ∃ t, sbmTry M z directed loops u false pop t 0 ≠ .ok none := ⟨1, by rw [h]; simp⟩
    simp only
    rw [dif_pos hex]
    have hpos : Nat.find hex ≠ 0 := by
      intro h0
      have := Nat.find_spec hex
      rw [h0] at this
      exact this rfl
    obtain ⟨t, htt⟩ := Nat.exists_eq_succ_of_ne_zero hpos
    rw [htt]
    simp only [Nat.succ_eq_add_one, h, sbmFinish, g1]

open Classical in
/-- the sets of pairs that make a connected graph -/
noncomputable def connectedSets (N : ℕ) (directed loops : Bool) : Finset (Finset (Pair N directed loops)) :=
  Finset.univ.filter fun C => StronglyConnected (matOf directed loops C)

theorem mem_connectedSets (C : Finset (Pair N directed loops)) : C ∈ connectedSets N directed loops ↔ StronglyConnected (matOf directed loops C) := by
  unfold connectedSets
  simp

/-- the result with the option `connected` -/
theorem retried (hN : 0 < N) (hM : ∀ i j, 0 ≤ M i j ∧ M i j ≤ 1) {lt : LapType} (hlt : lt = .combinatorial ∨ lt = .normalized) (pop : ℕ → Pop N) (u : ℕ → ℝ) :
    (∀ t, (∀ b < t, successes (edgeIdx directed loops) (prob M z directed loops) u b ∉ connectedSets N directed loops) →
      sbm M z directed loops u true pop (some t) lt = some (.error .valueError)) ∧
    (∀ a, (∀ b < a, successes (edgeIdx directed loops) (prob M z directed loops) u b ∉ connectedSets N directed loops) →
      successes (edgeIdx directed loops) (prob M z directed loops) u a ∈ connectedSets N directed loops →
      ∃ g, g.W.dense = matOf directed loops (successes (edgeIdx directed loops) (prob M z directed loops) u a) ∧
        (∀ t, a < t → sbm M z directed loops u true pop (some t) lt = some (.ok g)) ∧ sbm M z directed loops u true pop none lt = some (.ok g)) ∧
    ((∀ b, successes (edgeIdx directed loops) (prob M z directed loops) u b ∉ connectedSets N directed loops) →
      sbm M z directed loops u true pop none lt = none) := by
  classical
  have hc : ∀ a, StronglyConnected (sampleW M z directed loops u (a * sampleCalls N directed loops)) ↔
      successes (edgeIdx directed loops) (prob M z directed loops) u a ∈ connectedSets N directed loops := fun a => by
    rw [sample_eq, mem_connectedSets]
  have hnone : ∀ t, (∀ b < t, successes (edgeIdx directed loops) (prob M z directed loops) u b ∉ connectedSets N directed loops) →
      sbmTry M z directed loops u true pop t 0 = .ok none := fun t h =>
    sbmTry_none M z directed loops u hN pop t 0 fun a hat => by rw [Nat.zero_add, hc]; exact h a hat
  refine ⟨fun t h => ?_, fun a hb ha => ?_, fun h => ?_⟩
  · unfold sbm
    rw [(sbmCheck_iff M).2 hM]
    simp only
    rw [hnone t h]
    rfl
  · obtain ⟨g, g1, -, g3, -⟩ := Graph.ofCsr_canonical _ (Sp.canonical_ofDense (sampleW M z directed loops u (a * sampleCalls N directed loops))) hlt
    rw [Sp.dense_ofDense] at g3
    have hval : ∀ t, a < t → sbmTry M z directed loops u true pop t 0 = .ok (some (sampleW M z directed loops u (a * sampleCalls N directed loops))) := by
      intro t hat
      have := sbmTry_first M z directed loops u hN pop t a 0 hat (fun b hba => by rw [Nat.zero_add, hc]; exact hb b hba) (by rw [Nat.zero_add, hc]; exact ha)
      rwa [Nat.zero_add] at this
    refine ⟨g, by rw [g3, sample_eq], fun t hat => ?_, ?_⟩
    · unfold sbm
      rw [(sbmCheck_iff M).2 hM]
      simp only
      rw [hval t hat]
      simp only [sbmFinish, g1]
    · have hex : ∃ t, sbmTry M z directed loops u true pop t 0 ≠ .ok none := ⟨a + 1, by rw [hval _ (by omega)]; simp⟩
      unfold sbm
      rw [(sbmCheck_iff M).2 hM]
      simp only
      rw [dif_pos hex]
      have hfind : a < Nat.find hex := by
        by_contra hle
        push Not at hle
        exact Nat.find_spec hex (hnone _ fun b hb' => hb b (by omega))
      rw [hval _ hfind]
      simp only [sbmFinish, g1]
  · unfold sbm
    rw [(sbmCheck_iff M).2 hM]
    simp only
    rw [dif_neg]
    rintro ⟨t, ht⟩
    exact ht (hnone t fun b _ => h b)

/-- which attempt is returned -/
theorem retried_iff (hN : 0 < N) (hM : ∀ i j, 0 ≤ M i j ∧ M i j ≤ 1) {lt : LapType} (hlt : lt = .combinatorial ∨ lt = .normalized) (pop : ℕ → Pop N) (u : ℕ → ℝ)
    {A : Matrix (Fin N) (Fin N) ℝ} (hA : IsSample directed loops A) (hAc : StronglyConnected A) :
    (∀ t, (∃ g, sbm M z directed loops u true pop (some t) lt = some (.ok g) ∧ g.W.dense = A) ↔
      ∃ a < t, (∀ b < a, successes (edgeIdx directed loops) (prob M z directed loops) u b ∉ connectedSets N directed loops) ∧
        successes (edgeIdx directed loops) (prob M z directed loops) u a = edgeSet directed loops A) ∧
    ((∃ g, sbm M z directed loops u true pop none lt = some (.ok g) ∧ g.W.dense = A) ↔
      ∃ a, (∀ b < a, successes (edgeIdx directed loops) (prob M z directed loops) u b ∉ connectedSets N directed loops) ∧
        successes (edgeIdx directed loops) (prob M z directed loops) u a = edgeSet directed loops A) := by
  classical
  obtain ⟨h1, h2, h3⟩ := retried (z := z) (directed := directed) (loops := loops) hN hM hlt pop u
  have hmem : edgeSet directed loops A ∈ connectedSets N directed loops := by rw [mem_connectedSets, edgeSet_matOf directed loops hA]; exact hAc
  constructor
  · intro t
    constructor
    · rintro ⟨g, hg, hd⟩
      by_cases hex : ∃ a, a < t ∧ successes (edgeIdx directed loops) (prob M z directed loops) u a ∈ connectedSets N directed loops
      · obtain ⟨k1, k2⟩ := Nat.find_spec hex
        have hb : ∀ b < Nat.find hex, successes (edgeIdx directed loops) (prob M z directed loops) u b ∉ connectedSets N directed loops := fun b hb hm =>
          Nat.find_min hex hb ⟨hb.trans k1, hm⟩
        obtain ⟨g', d1, d2, -⟩ := h2 _ hb k2
        rw [d2 t k1] at hg
        obtain rfl : g' = g := by simpa using hg
        exact ⟨_, k1, hb, (matOf_eq directed loops hA _).1 (d1.symm.trans hd)⟩
      · push Not at hex
        rw [h1 t hex] at hg
        simp at hg
    · rintro ⟨a, hat, hb, ha⟩
      obtain ⟨g, d1, d2, -⟩ := h2 a hb (ha ▸ hmem)
      exact ⟨g, d2 t hat, by rw [d1, ha, edgeSet_matOf directed loops hA]⟩
  · constructor
    · rintro ⟨g, hg, hd⟩
      by_cases hex : ∃ a, successes (edgeIdx directed loops) (prob M z directed loops) u a ∈ connectedSets N directed loops
      · have hb : ∀ b < Nat.find hex, successes (edgeIdx directed loops) (prob M z directed loops) u b ∉ connectedSets N directed loops := fun b hb hm =>
          Nat.find_min hex hb hm
        obtain ⟨g', d1, -, d2⟩ := h2 _ hb (Nat.find_spec hex)
        rw [d2] at hg
        obtain rfl : g' = g := by simpa using hg
        exact ⟨_, hb, (matOf_eq directed loops hA _).1 (d1.symm.trans hd)⟩
      · push Not at hex
        rw [h3 hex] at hg
        cases hg
    · rintro ⟨a, hb, ha⟩
      obtain ⟨g, d1, -, d2⟩ := h2 a hb (ha ▸ hmem)
      exact ⟨g, d2, by rw [d1, ha, edgeSet_matOf directed loops hA]⟩

/-- the probability of a connected sample -/
theorem connected_prob (hM : ∀ i j, 0 ≤ M i j ∧ M i j ≤ 1) {lt : LapType} (hlt : lt = .combinatorial ∨ lt = .normalized) (pop : ℕ → Pop N) :
    draws.real {u | ∃ g, sbm M z directed loops u false pop (some 1) lt = some (.ok g) ∧ StronglyConnected g.W.dense} =
      ∑ C ∈ connectedSets N directed loops, law (prob M z directed loops) C := by
  have h := blocks (edgeIdx_inj directed loops) (prob_mem (z := z) hM) 1 fun _ => connectedSets N directed loops
  have e1 : {u | ∃ g, sbm M z directed loops u false pop (some 1) lt = some (.ok g) ∧ StronglyConnected g.W.dense} =
      {u | ∀ a : Fin 1, successes (edgeIdx directed loops) (prob M z directed loops) u a ∈ connectedSets N directed loops} := by
    ext u
    obtain ⟨g, hg, hgd⟩ := plain (z := z) (directed := directed) (loops := loops) hM hlt pop (nTry := some 1) (by simp) u
    simp only [Set.mem_setOf_eq, Fin.forall_fin_one, mem_connectedSets]
    constructor
    · rintro ⟨g', hg', h⟩
      rw [hg] at hg'
      obtain rfl : g = g' := by simpa using hg'
      rw [hgd] at h
      exact h
    · intro h; exact ⟨g, hg, by rw [hgd]; exact h⟩
  rw [Measure.real, e1, h, ENNReal.toReal_ofReal]
  · simp
  · exact Finset.prod_nonneg fun _ _ => Finset.sum_nonneg fun C _ => law_nonneg (prob_mem hM) C

theorem card_edges (C : Finset (Pair N false loops)) : (edges (matOf false loops C)).card = C.card := by
  classical
  have h : edges (matOf false loops C) = C.image fun e => s(e.1.1, e.1.2) := by
    ext x
    induction x using Sym2.ind with
    | _ i j =>
    simp only [edges, arcs, Finset.mem_image, Finset.mem_filter, Finset.mem_univ, true_and]
    have hne : ∀ i j, matOf false loops C i j ≠ 0 ↔ ∃ e ∈ C, e.1 = (i, j) ∨ e.1 = (j, i) := by
      intro i j
      simp only [matOf, Matrix.of_apply, Bool.false_eq_true, false_or]
      have hle : ∀ e : Pair N false loops, e.1.2 ≤ e.1.1 := fun e => e.2.2.resolve_right (by simp)
      by_cases hji : j ≤ i
      · rw [if_pos hji]
        have : (∃ e ∈ C, e.1 = (i, j) ∨ e.1 = (j, i)) ↔ ∃ e ∈ C, e.1 = (i, j) := by
          refine exists_congr fun e => and_congr_right fun _ => ⟨?_, .inl⟩
          rintro (h | h)
          · exact h
          · have := hle e
            rw [h] at this ⊢
            have := le_antisymm hji this
            subst this; rfl
        rw [this]
        exact ⟨fun h => by_contra fun hc => h (if_neg hc), fun h => by rw [if_pos h]; exact one_ne_zero⟩
      · rw [if_neg hji]
        have : (∃ e ∈ C, e.1 = (i, j) ∨ e.1 = (j, i)) ↔ ∃ e ∈ C, e.1 = (j, i) := by
          refine exists_congr fun e => and_congr_right fun _ => ⟨?_, .inr⟩
          rintro (h | h)
          · have := hle e
            rw [h] at this
            exact absurd this hji
          · exact h
        rw [this]
        exact ⟨fun h => by_contra fun hc => h (if_neg hc), fun h => by rw [if_pos h]; exact one_ne_zero⟩
    constructor
    · rintro ⟨⟨i', j'⟩, h1, h2⟩
      obtain ⟨e, he, h3⟩ := (hne i' j').1 h1
      refine ⟨e, he, ?_⟩
      rw [← h2]
      rcases h3 with h3 | h3
      · rw [h3]
      · rw [h3]; exact Sym2.eq_swap
    · rintro ⟨e, he, h1⟩
      exact ⟨e.1, (hne _ _).2 ⟨e, he, .inl rfl⟩, h1⟩
  rw [h, Finset.card_image_of_injective]
  intro e e' hee
  have hle : ∀ e : Pair N false loops, e.1.2 ≤ e.1.1 := fun e => e.2.2.resolve_right (by simp)
  have h1 := hle e
  have h2 := hle e'
  simp only [Sym2.eq, Sym2.rel_iff', Prod.mk.injEq, Prod.swap_prod_mk] at hee
  rcases hee with ⟨a, b⟩ | ⟨a, b⟩
  · exact Subtype.ext (Prod.ext a b)
  · rw [a, b] at h1
    have := le_antisymm h1 h2
    exact Subtype.ext (Prod.ext (by rw [a, ← this]) (by rw [b, this]))

end RandomGraph

open RandomGraph

section
variable {M : Matrix (Fin k) (Fin k) ℝ} {z : Fin N → Fin k} {directed loops : Bool} {pop : ℕ → Pop N} {nTry : Option ℕ} {lt : LapType}

/-- **C123** The graph is a sample of the block model: without the option `connected`, the probability of a graph is the product of the probabilities of
its edges and non-edges (and only such graphs come out). -/
theorem C123_distribution (hN : 0 < N) (hM : ∀ i j, 0 ≤ M i j ∧ M i j ≤ 1) (hlt : lt = .combinatorial ∨ lt = .normalized) (ht : nTry ≠ some 0)
    (A : Matrix (Fin N) (Fin N) ℝ) :
    (IsSample directed loops A → draws {u | ∃ g, sbm M z directed loops u false pop nTry lt = some (.ok g) ∧ g.W.dense = A} =
      ENNReal.ofReal (probability M z directed loops A)) ∧
    (¬ IsSample directed loops A → ∀ u g, sbm M z directed loops u false pop nTry lt = some (.ok g) → g.W.dense ≠ A) := by
  classical
  constructor
  · intro hA
    have h := cylinder (edgeIdx directed loops 0) (fun e e' he => (edgeIdx_inj directed loops 0 e 0 e' he).2) (prob M z directed loops) (prob_mem hM)
      fun e => e ∈ edgeSet directed loops A
    have e1 : {u | ∃ g, sbm M z directed loops u false pop nTry lt = some (.ok g) ∧ g.W.dense = A} =
        {u | ∀ e, (u (edgeIdx directed loops 0 e) < prob M z directed loops e ↔ e ∈ edgeSet directed loops A)} := by
      ext u
      obtain ⟨g, hg, hgd⟩ := plain (z := z) (directed := directed) (loops := loops) hM hlt pop ht u
      simp only [Set.mem_setOf_eq]
      rw [← successes_eq, ← matOf_eq directed loops hA, ← hgd]
      constructor
      · rintro ⟨g', hg', h⟩
        rw [hg] at hg'
        obtain rfl : g = g' := by simpa using hg'
        exact h
      · intro h; exact ⟨g, hg, h⟩
    rw [e1, h, ← law_edgeSet]
    congr 1
    unfold law
    exact Finset.prod_congr rfl fun e _ => by congr
  · intro hA u g hg hd
    obtain ⟨-, s1, s2, s3, -⟩ := C74_structure hN hg
    rw [hd] at s1 s2 s3
    exact hA ⟨s1, fun h i j => s2 h i j, s3⟩

open Classical in
/-- **C123** The pairs are linked independently of each other, with the probabilities of their blocks: for any set `F` of pairs and any subset `B`, the
probability that the linked pairs of `F` are those of `B`. -/
theorem C123_independent (hM : ∀ i j, 0 ≤ M i j ∧ M i j ≤ 1) (hlt : lt = .combinatorial ∨ lt = .normalized) (ht : nTry ≠ some 0)
    (F B : Finset (Pair N directed loops)) :
    draws {u | ∃ g, sbm M z directed loops u false pop nTry lt = some (.ok g) ∧ ∀ e ∈ F, (g.W.dense e.1.1 e.1.2 = 1 ↔ e ∈ B)} =
      ENNReal.ofReal (∏ e ∈ F, if e ∈ B then M (z e.1.1) (z e.1.2) else 1 - M (z e.1.1) (z e.1.2)) := by
  have h := cylinder (ι := F) (fun e => edgeIdx directed loops 0 e.1) (fun e e' he => Subtype.ext (edgeIdx_inj directed loops 0 e.1 0 e'.1 he).2)
    (fun e => prob M z directed loops e.1) (fun e => prob_mem hM e.1) fun e => e.1 ∈ B
  have e1 : {u | ∃ g, sbm M z directed loops u false pop nTry lt = some (.ok g) ∧ ∀ e ∈ F, (g.W.dense e.1.1 e.1.2 = 1 ↔ e ∈ B)} =
      {u | ∀ e : F, (u (edgeIdx directed loops 0 e.1) < prob M z directed loops e.1 ↔ e.1 ∈ B)} := by
    ext u
    obtain ⟨g, hg, hgd⟩ := plain (z := z) (directed := directed) (loops := loops) hM hlt pop ht u
    have hm : ∀ e : Pair N directed loops, g.W.dense e.1.1 e.1.2 = 1 ↔ u (edgeIdx directed loops 0 e) < prob M z directed loops e := by
      intro e
      rw [hgd, matOf_pair]
      exact mem_successes _ _ _
    simp only [Set.mem_setOf_eq]
    constructor
    · rintro ⟨g', hg', h⟩ e
      rw [hg] at hg'
      obtain rfl : g = g' := by simpa using hg'
      rw [← hm]; exact h e.1 e.2
    · intro h
      exact ⟨g, hg, fun e he => by rw [hm]; exact h ⟨e, he⟩⟩
  rw [e1, h, ← Finset.prod_coe_sort F]
  congr 1
  exact Finset.prod_congr rfl fun e _ => by unfold prob; congr

/-- **C123** With `connected=True` and unlimited trials, when a sample is connected with probability `q > 0`: the constructor returns with probability one, and
the probability of a connected graph is its probability in the model divided by `q` (the model conditioned on being connected). -/
theorem C123_conditional (hN : 0 < N) (hM : ∀ i j, 0 ≤ M i j ∧ M i j ≤ 1) (hlt : lt = .combinatorial ∨ lt = .normalized) {q : ℝ}
    (hq : q = draws.real {u | ∃ g, sbm M z directed loops u false pop (some 1) lt = some (.ok g) ∧ StronglyConnected g.W.dense}) (hq0 : 0 < q) :
    draws {u | sbm M z directed loops u true pop none lt = none} = 0 ∧
    ∀ A, IsSample directed loops A → StronglyConnected A →
      draws {u | ∃ g, sbm M z directed loops u true pop none lt = some (.ok g) ∧ g.W.dense = A} = ENNReal.ofReal (probability M z directed loops A / q) := by
  classical
  rw [connected_prob hM hlt pop] at hq
  constructor
  · refine measure_mono_null ?_ (never (edgeIdx_inj directed loops) (prob_mem (z := z) hM) (connectedSets N directed loops) (hq ▸ hq0))
    intro u hu
    by_contra hc
    simp only [Set.mem_setOf_eq, not_forall, not_not] at hc
    obtain ⟨-, h2, -⟩ := retried (z := z) (directed := directed) (loops := loops) hN hM hlt pop u
    obtain ⟨g, -, -, h⟩ := h2 _ (fun b hb => Nat.find_min hc hb) (Nat.find_spec hc)
    rw [Set.mem_setOf_eq, h] at hu
    cases hu
  · intro A hA hAc
    have e1 : {u | ∃ g, sbm M z directed loops u true pop none lt = some (.ok g) ∧ g.W.dense = A} = _ :=
      Set.ext fun u => (retried_iff (z := z) (directed := directed) (loops := loops) hN hM hlt pop u hA hAc).2
    rw [e1]
    have := first_ever (edgeIdx_inj directed loops) (prob_mem (z := z) hM) (connectedSets N directed loops) (C := edgeSet directed loops A)
      (by rw [mem_connectedSets, edgeSet_matOf directed loops hA]; exact hAc) (hq ▸ hq0)
    rw [← hq, law_edgeSet] at this
    exact this

/-- **C123** With `connected=True` and `n_try=t`: ValueError with probability `(1 - q)^t`, a connected graph with its probability in the model times
`1 + (1 - q) + ... + (1 - q)^(t-1)`. -/
theorem C123_trials (hN : 0 < N) (hM : ∀ i j, 0 ≤ M i j ∧ M i j ≤ 1) (hlt : lt = .combinatorial ∨ lt = .normalized) {q : ℝ}
    (hq : q = draws.real {u | ∃ g, sbm M z directed loops u false pop (some 1) lt = some (.ok g) ∧ StronglyConnected g.W.dense}) (t : ℕ) :
    draws {u | sbm M z directed loops u true pop (some t) lt = some (.error .valueError)} = ENNReal.ofReal ((1 - q) ^ t) ∧
    ∀ A, IsSample directed loops A → StronglyConnected A →
      draws {u | ∃ g, sbm M z directed loops u true pop (some t) lt = some (.ok g) ∧ g.W.dense = A} =
        ENNReal.ofReal (probability M z directed loops A * ∑ a ∈ Finset.range t, (1 - q) ^ a) := by
  classical
  rw [connected_prob hM hlt pop] at hq
  constructor
  · have := none_before (edgeIdx_inj directed loops) (prob_mem (z := z) hM) (connectedSets N directed loops) t
    rw [← hq] at this
    rw [← this]
    congr 1
    ext u
    obtain ⟨h1, h2, -⟩ := retried (z := z) (directed := directed) (loops := loops) hN hM hlt pop u
    simp only [Set.mem_setOf_eq]
    refine ⟨fun h b hb hm => ?_, h1 t⟩
    have hex : ∃ b, successes (edgeIdx directed loops) (prob M z directed loops) u b ∈ connectedSets N directed loops := ⟨b, hm⟩
    obtain ⟨g, -, h3, -⟩ := h2 _ (fun b hb => Nat.find_min hex hb) (Nat.find_spec hex)
    rw [h3 t (lt_of_le_of_lt (Nat.find_min' hex hm) hb)] at h
    simp at h
  · intro A hA hAc
    have e1 : {u | ∃ g, sbm M z directed loops u true pop (some t) lt = some (.ok g) ∧ g.W.dense = A} = _ :=
      Set.ext fun u => (retried_iff (z := z) (directed := directed) (loops := loops) hN hM hlt pop u hA hAc).1 t
    rw [e1]
    have := first_within (edgeIdx_inj directed loops) (prob_mem (z := z) hM) (connectedSets N directed loops) (C := edgeSet directed loops A)
      (by rw [mem_connectedSets, edgeSet_matOf directed loops hA]; exact hAc) t
    rw [← hq, law_edgeSet] at this
    exact this

/-- **C123** The number of edges of an undirected sample: its mean is the sum of the probabilities of the pairs, and it deviates from it by `eps` or more with
probability at most `2 exp(-2 eps² / number of pairs)` (Hoeffding). -/
theorem C123_edges (hN : 0 < N) (hM : ∀ i j, 0 ≤ M i j ∧ M i j ≤ 1) (ht : nTry ≠ some 0) {G : (ℕ → ℝ) → Graph N ℝ}
    (hG : ∀ u, sbm M z false loops u false pop nTry lt = some (.ok (G u))) :
    (∫ u, ((G u).nEdges : ℝ) ∂draws = ∑ e : Pair N false loops, M (z e.1.1) (z e.1.2)) ∧
    ∀ eps, 0 ≤ eps → draws.real {u | eps ≤ |((G u).nEdges : ℝ) - ∑ e : Pair N false loops, M (z e.1.1) (z e.1.2)|} ≤
      2 * Real.exp (-(2 * eps ^ 2) / Fintype.card (Pair N false loops)) := by
  have hlt : lt = .combinatorial ∨ lt = .normalized := by
    obtain ⟨-, a, ha, -⟩ := sbm_ok M z false loops (fun _ => 0) hN (hG fun _ => 0)
    exact (Graph.ofCsr_ok ha).2.2.2
  have hn : ∀ u, (G u).nEdges = (successes (edgeIdx false loops) (prob M z false loops) u 0).card := by
    intro u
    obtain ⟨g, hg, hgd⟩ := plain (z := z) (directed := false) (loops := loops) hM hlt pop ht u
    rw [hG u] at hg
    obtain rfl : G u = g := by simpa using hg
    obtain ⟨s0, -, s2, -, -⟩ := C74_structure hN (hG u)
    rw [C02_n_edges_undirected _ s0 (s2 rfl), hgd, card_edges]
  simp only [hn]
  exact ⟨count_mean (prob_mem hM) 0, fun eps he => count_tail (fun e e' h => (edgeIdx_inj false loops 0 e 0 e' h).2) (prob_mem hM) he⟩

open Classical in
theorem RandomGraph.card_pairs (N : ℕ) : Fintype.card (Pair N false false) = N.choose 2 := by
  rw [Fintype.card_subtype, Finset.card_filter, Fintype.sum_prod_type]
  have h : ∀ i : Fin N, (∑ j : Fin N, if ((i ≠ j ∨ false = true) ∧ (j ≤ i ∨ false = true)) then 1 else 0) = i.1 := by
    intro i
    rw [← Finset.card_filter]
    have : (Finset.univ.filter fun j : Fin N => (i ≠ j ∨ false = true) ∧ (j ≤ i ∨ false = true)) = Finset.Iio i := by
      ext j
      simp only [Finset.mem_filter, Finset.mem_univ, true_and, Bool.false_eq_true, or_false, Finset.mem_Iio]
      exact ⟨fun h => lt_of_le_of_ne h.2 fun e => h.1 e.symm, fun h => ⟨fun e => h.ne e.symm, h.le⟩⟩
    rw [this, Fin.card_Iio]
  rw [Finset.sum_congr rfl fun i _ => h i, Fin.sum_univ_eq_sum_range (fun i => i), Finset.sum_range_id, Nat.choose_two_right]

open Classical in
/-- **C123** `ErdosRenyi(N, p)` (no self-loops, not directed): every graph with `m` edges has the probability `p^m (1-p)^(N(N-1)/2 - m)`; the number of edges has the
mean `p N(N-1)/2` and deviates from it by `eps` or more with probability at most `2 exp(-2 eps² / (N(N-1)/2))`. -/
theorem C123_erdosRenyi (hN : 0 < N) {p : ℝ} (hp : 0 ≤ p ∧ p ≤ 1) (ht : nTry ≠ some 0) {G : (ℕ → ℝ) → Graph N ℝ}
    (hG : ∀ u, erdosRenyi N p false false false u pop nTry lt = some (.ok (G u))) :
    (∀ A : Matrix (Fin N) (Fin N) ℝ, IsSample false false A →
      draws {u | (G u).W.dense = A} = ENNReal.ofReal (p ^ (edges A).card * (1 - p) ^ (N.choose 2 - (edges A).card))) ∧
    (∫ u, ((G u).nEdges : ℝ) ∂draws = p * N.choose 2) ∧
    ∀ eps, 0 ≤ eps → draws.real {u | eps ≤ |((G u).nEdges : ℝ) - p * N.choose 2|} ≤ 2 * Real.exp (-(2 * eps ^ 2) / N.choose 2) := by
  obtain ⟨⟨M, q', h1, h2⟩, -⟩ := (C74_probabilities 1 (.scalar p) .default).1 p rfl
  have hM : ∀ i j, M i j = p := fun i j => by rw [h2, if_pos (Subsingleton.elim _ _)]
  have hM1 : ∀ i j, 0 ≤ M i j ∧ M i j ≤ 1 := fun i j => by rw [hM]; exact hp
  have he : ∀ u, sbm M (sbmLabels (fun _ : Fin N => 0) none) false false u false pop nTry lt = some (.ok (G u)) := by
    intro u
    have := hG u
    unfold erdosRenyi at this
    rwa [h1] at this
  have hlt : lt = .combinatorial ∨ lt = .normalized := by
    obtain ⟨-, a, ha, -⟩ := sbm_ok M _ false false (fun _ => 0) hN (he fun _ => 0)
    exact (Graph.ofCsr_ok ha).2.2.2
  have hE := C123_edges hN hM1 ht he
  have hsum : ∑ e : Pair N false false, M (sbmLabels (fun _ : Fin N => 0) none e.1.1) (sbmLabels (fun _ : Fin N => 0) none e.1.2) = p * N.choose 2 := by
    simp only [hM, Finset.sum_const, Finset.card_univ, card_pairs, nsmul_eq_mul]
    ring
  rw [hsum, card_pairs] at hE
  refine ⟨fun A hA => ?_, hE⟩
  have h := (C123_distribution (pop := pop) (z := sbmLabels (fun _ : Fin N => 0) none) hN hM1 hlt ht A).1 hA
  have e1 : {u | ∃ g, sbm M (sbmLabels (fun _ : Fin N => 0) none) false false u false pop nTry lt = some (.ok g) ∧ g.W.dense = A} = {u | (G u).W.dense = A} := by
    ext u
    simp only [Set.mem_setOf_eq]
    constructor
    · rintro ⟨g, hg, h⟩
      rw [he u] at hg
      obtain rfl : G u = g := by simpa using hg
      exact h
    · intro h; exact ⟨_, he u, h⟩
  rw [e1] at h
  rw [h]
  congr 1
  unfold probability
  simp only [hM]
  rw [Finset.prod_ite, Finset.prod_const, Finset.prod_const]
  have hc : (Finset.univ.filter fun e : Pair N false false => A e.1.1 e.1.2 = 1).card = (edges A).card := by
    conv_rhs => rw [← edgeSet_matOf false false hA]
    rw [card_edges]
    rfl
  have hc2 : (Finset.univ.filter fun e : Pair N false false => ¬ A e.1.1 e.1.2 = 1).card = N.choose 2 - (edges A).card := by
    have := Finset.card_filter_add_card_filter_not (s := (Finset.univ : Finset (Pair N false false))) fun e => A e.1.1 e.1.2 = 1
    rw [hc, Finset.card_univ, card_pairs] at this
    omega
  rw [hc, hc2]

/-- The hypotheses hold together, for two blocks of two vertices. -/
example (pop : ℕ → Pop 4) : ∃ G : (ℕ → ℝ) → Graph 4 ℝ, ∀ u, sbm !![(1 / 2 : ℝ), 1 / 4; 1 / 4, 1 / 2] ![0, 0, 1, 1] false false u false pop (some 3) .combinatorial =
    some (.ok (G u)) := by
  have := fun u => plain (M := !![(1 / 2 : ℝ), 1 / 4; 1 / 4, 1 / 2]) (z := ![0, 0, 1, 1]) (directed := false) (loops := false)
    (by intro i j; fin_cases i <;> fin_cases j <;> norm_num) (lt := .combinatorial) (.inl rfl) pop (nTry := some 3) (by simp) u
  choose G hG _ using this
  exact ⟨G, hG⟩

/-- With probabilities in `(0, 1]` a sample is connected with positive probability: the hypothesis of `C123_conditional`. -/
theorem C123_connected_positive (hN : 0 < N) (hM : ∀ i j, 0 < M i j ∧ M i j ≤ 1) (hlt : lt = .combinatorial ∨ lt = .normalized) :
    0 < draws.real {u | ∃ g, sbm M z directed loops u false pop (some 1) lt = some (.ok g) ∧ StronglyConnected g.W.dense} := by
  classical
  have hM1 : ∀ i j, 0 ≤ M i j ∧ M i j ≤ 1 := fun i j => ⟨(hM i j).1.le, (hM i j).2⟩
  rw [connected_prob hM1 hlt pop]
  refine lt_of_lt_of_le ?_ (Finset.single_le_sum (f := fun C => law (prob M z directed loops) C) (fun C _ => law_nonneg (prob_mem hM1) C)
    (show (Finset.univ : Finset (Pair N directed loops)) ∈ connectedSets N directed loops from ?_))
  · unfold law
    exact Finset.prod_pos fun e _ => by rw [if_pos (Finset.mem_univ e)]; exact (hM _ _).1
  · rw [mem_connectedSets]
    intro i j
    by_cases hij : i = j
    · subst hij; exact Relation.ReflTransGen.refl
    · refine Relation.ReflTransGen.single ?_
      show matOf directed loops Finset.univ i j ≠ 0
      simp only [matOf, Matrix.of_apply]
      split
      · rename_i h
        rw [if_pos ⟨⟨(i, j), .inl hij, h.symm⟩, Finset.mem_univ _, rfl⟩]
        exact one_ne_zero
      · rename_i h
        push Not at h
        rw [if_pos ⟨⟨(j, i), .inl fun e => hij e.symm, .inl h.2.le⟩, Finset.mem_univ _, rfl⟩]
        exact one_ne_zero

end

end PyGSP
