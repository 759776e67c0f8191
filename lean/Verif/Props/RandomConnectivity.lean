import Verif.Props.RandomGraphs

/-!
# C125: connectivity and degrees of StochasticBlockModel and ErdosRenyi
-/

namespace PyGSP

open Matrix Spec Gen Random MeasureTheory RandomGraph

variable {N k : ℕ}

open Classical in
/-- The pairs of vertices with exactly one end in `A`. -/
noncomputable def Spec.crossing (loops : Bool) (A : Finset (Fin N)) : Finset (Pair N false loops) :=
  Finset.univ.filter fun e => (e.1.1 ∈ A) ≠ (e.1.2 ∈ A)

namespace RandomGraph

variable {M : Matrix (Fin k) (Fin k) ℝ} {z : Fin N → Fin k} {loops : Bool} {pop : ℕ → Pop N} {nTry : Option ℕ} {lt : LapType}
  {G : (ℕ → ℝ) → Graph N ℝ}

theorem known (hN : 0 < N) (hG : ∀ u, sbm M z false loops u false pop nTry lt = some (.ok (G u))) : lt = .combinatorial ∨ lt = .normalized := by
  obtain ⟨-, a, ha, -⟩ := sbm_ok M z false loops (fun _ => 0) hN (hG fun _ => 0)
  exact (Graph.ofCsr_ok ha).2.2.2

theorem dense_eq (hN : 0 < N) (hM : ∀ i j, 0 ≤ M i j ∧ M i j ≤ 1) (ht : nTry ≠ some 0)
    (hG : ∀ u, sbm M z false loops u false pop nTry lt = some (.ok (G u))) (u : ℕ → ℝ) :
    (G u).W.dense = matOf false loops (successes (edgeIdx false loops) (prob M z false loops) u 0) := by
  obtain ⟨g, h1, h2⟩ := plain (z := z) (directed := false) (loops := loops) hM (known hN hG) pop ht u
  rw [hG u] at h1
  obtain rfl : G u = g := by simpa using h1
  exact h2

theorem mat_symm (C : Finset (Pair N false loops)) (i j : Fin N) : matOf false loops C i j = matOf false loops C j i := by
  classical
  simp only [matOf, Matrix.of_apply, Bool.false_eq_true, false_or]
  rcases lt_trichotomy i j with h | h | h
  · rw [if_neg (not_le.2 h), if_pos h.le]
  · subst h; rfl
  · rw [if_pos h.le, if_neg (not_le.2 h)]

theorem mat_zero (C : Finset (Pair N false loops)) (i j : Fin N) : matOf false loops C i j = 0 ↔ ∀ e ∈ C, e.1 ≠ (i, j) ∧ e.1 ≠ (j, i) := by
  classical
  have hle : ∀ e : Pair N false loops, e.1.2 ≤ e.1.1 := fun e => e.2.2.resolve_right (by simp)
  have key : ∀ i j : Fin N, j ≤ i → (matOf false loops C i j = 0 ↔ ∀ e ∈ C, e.1 ≠ (i, j) ∧ e.1 ≠ (j, i)) := by
    intro i j hji
    simp only [matOf, Matrix.of_apply, Bool.false_eq_true, false_or, if_pos hji]
    constructor
    · intro h e he
      have h1 : ¬ ∃ e ∈ C, e.1 = (i, j) := fun h2 => by rw [if_pos h2] at h; exact one_ne_zero h
      refine ⟨fun h2 => h1 ⟨e, he, h2⟩, fun h2 => h1 ⟨e, he, ?_⟩⟩
      have := hle e
      rw [h2] at this ⊢
      obtain rfl := le_antisymm hji this
      rfl
    · intro h
      rw [if_neg]
      rintro ⟨e, he, h2⟩
      exact (h e he).1 h2
  rcases le_total j i with h | h
  · exact key i j h
  · rw [mat_symm, key j i h]
    exact forall₂_congr fun e _ => and_comm

theorem mat_cut (C : Finset (Pair N false loops)) (A : Finset (Fin N)) :
    (∀ i ∈ A, ∀ j ∉ A, matOf false loops C i j = 0) ↔ ∀ e ∈ crossing loops A, matOf false loops C e.1.1 e.1.2 ≠ 1 := by
  classical
  simp only [crossing, Finset.mem_filter, Finset.mem_univ, true_and]
  constructor
  · intro h e he h1
    by_cases ha : e.1.1 ∈ A
    · have hb : e.1.2 ∉ A := fun hb => he (by simp [ha, hb])
      rw [h _ ha _ hb] at h1
      exact zero_ne_one h1
    · have hb : e.1.2 ∈ A := by by_contra hb; exact he (by simp [ha, hb])
      rw [mat_symm, h _ hb _ ha] at h1
      exact zero_ne_one h1
  · intro h i hi j hj
    rw [mat_zero]
    intro e he
    have h1 := (matOf_pair false loops C e).2 he
    refine ⟨fun h2 => h e ?_ h1, fun h2 => h e ?_ h1⟩
    · rw [h2]; simp [hi, hj]
    · rw [h2]; simp [hi, hj]

end RandomGraph

section
variable {M : Matrix (Fin k) (Fin k) ℝ} {z : Fin N → Fin k} {loops : Bool} {pop : ℕ → Pop N} {nTry : Option ℕ} {lt : LapType}
  {G : (ℕ → ℝ) → Graph N ℝ}

/-- **C125** The probability that no edge leaves a given set of vertices is the product of the probabilities that the crossing pairs are not linked. -/
theorem C125_cut (hN : 0 < N) (hM : ∀ i j, 0 ≤ M i j ∧ M i j ≤ 1) (ht : nTry ≠ some 0)
    (hG : ∀ u, sbm M z false loops u false pop nTry lt = some (.ok (G u))) (A : Finset (Fin N)) :
    draws.real {u | ∀ i ∈ A, ∀ j ∉ A, (G u).W.dense i j = 0} = ∏ e ∈ crossing loops A, (1 - M (z e.1.1) (z e.1.2)) := by
  classical
  have h := C123_independent (z := z) (pop := pop) hM (known hN hG) ht (crossing loops A) ∅
  have e1 : {u | ∃ g, sbm M z false loops u false pop nTry lt = some (.ok g) ∧
      ∀ e ∈ crossing loops A, (g.W.dense e.1.1 e.1.2 = 1 ↔ e ∈ (∅ : Finset (Pair N false loops)))} = {u | ∀ i ∈ A, ∀ j ∉ A, (G u).W.dense i j = 0} := by
    ext u
    simp only [Set.mem_setOf_eq, Finset.notMem_empty, iff_false]
    rw [dense_eq hN hM ht hG, mat_cut]
    constructor
    · rintro ⟨g, hg, h⟩
      rw [hG u] at hg
      obtain rfl : G u = g := by simpa using hg
      rwa [dense_eq hN hM ht hG] at h
    · intro h
      exact ⟨G u, hG u, by rwa [dense_eq hN hM ht hG]⟩
  rw [e1] at h
  rw [Measure.real, h, ENNReal.toReal_ofReal]
  · refine Finset.prod_congr rfl fun e _ => by simp
  · exact Finset.prod_nonneg fun e _ => by simp [(hM _ _).2]

open Classical in
theorem RandomGraph.cut_of_disconnected {A : Matrix (Fin N) (Fin N) ℝ} (hA : ∀ i j, A i j = A j i) (h : ¬ StronglyConnected A) :
    ∃ B : Finset (Fin N), B.Nonempty ∧ 2 * B.card ≤ N ∧ ∀ i ∈ B, ∀ j ∉ B, A i j = 0 := by
  unfold StronglyConnected at h
  push Not at h
  obtain ⟨i, j, hij⟩ := h
  set R : Finset (Fin N) := Finset.univ.filter fun v => Reach A i v with hR
  have hm : ∀ v, v ∈ R ↔ Reach A i v := fun v => by simp [hR]
  have hcut : ∀ a ∈ R, ∀ b ∉ R, A a b = 0 := fun a ha b hb => by
    by_contra h0
    exact hb ((hm b).2 (((hm a).1 ha).tail h0))
  have hcard := Finset.card_add_card_compl R
  rw [Fintype.card_fin] at hcard
  by_cases h2 : 2 * R.card ≤ N
  · exact ⟨R, ⟨i, (hm i).2 .refl⟩, h2, hcut⟩
  · refine ⟨Rᶜ, ⟨j, by rw [Finset.mem_compl, hm]; exact hij⟩, by omega, fun a ha b hb => ?_⟩
    rw [hA]
    rw [Finset.mem_compl] at ha
    rw [Finset.mem_compl, not_not] at hb
    exact hcut b hb a ha

/-- **C125** A sample is disconnected at least as often as a given set of vertices is separated from the others. -/
theorem C125_lower (hN : 0 < N) (hM : ∀ i j, 0 ≤ M i j ∧ M i j ≤ 1) (ht : nTry ≠ some 0)
    (hG : ∀ u, sbm M z false loops u false pop nTry lt = some (.ok (G u))) {A : Finset (Fin N)} (hA : A.Nonempty) (hA' : A ≠ Finset.univ) :
    ∏ e ∈ crossing loops A, (1 - M (z e.1.1) (z e.1.2)) ≤ draws.real {u | ¬ StronglyConnected (G u).W.dense} := by
  rw [← C125_cut hN hM ht hG A]
  refine measureReal_mono fun u hu hc => ?_
  obtain ⟨i, hi⟩ := hA
  obtain ⟨j, hj⟩ : ∃ j, j ∉ A := by
    by_contra h
    push Not at h
    exact hA' (Finset.eq_univ_iff_forall.2 h)
  have : ∀ v, Reach (G u).W.dense i v → v ∈ A := fun v hv => by
    induction hv with
    | refl => exact hi
    | tail _ h ih =>
      by_contra hb
      exact h (hu _ ih _ hb)
  exact hj (this j (hc i j))

open Classical in
/-- **C125** A sample is disconnected at most with the sum over the sets of at most half of the vertices of the probabilities that they are separated. -/
theorem C125_upper (hN : 0 < N) (hM : ∀ i j, 0 ≤ M i j ∧ M i j ≤ 1) (ht : nTry ≠ some 0)
    (hG : ∀ u, sbm M z false loops u false pop nTry lt = some (.ok (G u))) :
    draws.real {u | ¬ StronglyConnected (G u).W.dense} ≤
      ∑ A : Finset (Fin N) with A.Nonempty ∧ 2 * A.card ≤ N, ∏ e ∈ crossing loops A, (1 - M (z e.1.1) (z e.1.2)) := by
  refine le_trans (measureReal_mono (s₂ := ⋃ A ∈ Finset.univ.filter fun A : Finset (Fin N) => A.Nonempty ∧ 2 * A.card ≤ N,
    {u | ∀ i ∈ A, ∀ j ∉ A, (G u).W.dense i j = 0}) (fun u hu => ?_) (measure_ne_top _ _)) ?_
  · obtain ⟨B, h1, h2, h3⟩ := cut_of_disconnected (fun i j => by rw [dense_eq hN hM ht hG, mat_symm]) hu
    simp only [Set.mem_iUnion]
    exact ⟨B, Finset.mem_filter.2 ⟨Finset.mem_univ _, h1, h2⟩, h3⟩
  · refine (measureReal_biUnion_finset_le _ _).trans (le_of_eq ?_)
    exact Finset.sum_congr rfl fun A _ => C125_cut hN hM ht hG A

theorem RandomGraph.card_crossing (loops : Bool) (A : Finset (Fin N)) : (crossing loops A).card = A.card * (N - A.card) := by
  classical
  have hle : ∀ e : Pair N false loops, e.1.2 ≤ e.1.1 := fun e => e.2.2.resolve_right (by simp)
  have hc : Aᶜ.card = N - A.card := by rw [Finset.card_compl, Fintype.card_fin]
  rw [← hc, ← Finset.card_product]
  refine Finset.card_bij (fun e _ => if e.1.1 ∈ A then (e.1.1, e.1.2) else (e.1.2, e.1.1)) ?_ ?_ ?_
  · intro e he
    simp only [crossing, Finset.mem_filter, Finset.mem_univ, true_and, ne_eq, eq_iff_iff] at he
    by_cases h1 : e.1.1 ∈ A
    · rw [if_pos h1]; simp only [Finset.mem_product, Finset.mem_compl]; tauto
    · rw [if_neg h1]; simp only [Finset.mem_product, Finset.mem_compl]; tauto
  · intro e he e' he' h
    simp only [crossing, Finset.mem_filter, Finset.mem_univ, true_and, ne_eq, eq_iff_iff] at he he'
    have h1 := hle e
    have h2 := hle e'
    have hfin : e.1 = e'.1 := by
      by_cases a : e.1.1 ∈ A <;> by_cases b : e'.1.1 ∈ A
      · rw [if_pos a, if_pos b] at h; exact h
      · rw [if_pos a, if_neg b, Prod.mk.injEq] at h
        rw [h.1, h.2] at h1
        have := le_antisymm h1 h2
        exact Prod.ext (by rw [h.1, ← this]) (by rw [h.2, this])
      · rw [if_neg a, if_pos b, Prod.mk.injEq] at h
        rw [h.1, h.2] at h1
        have := le_antisymm h1 h2
        exact Prod.ext (by rw [h.2, this]) (by rw [h.1, ← this])
      · rw [if_neg a, if_neg b, Prod.mk.injEq] at h
        exact Prod.ext h.2 h.1
    exact Subtype.ext hfin
  · rintro ⟨i, j⟩ hij
    rw [Finset.mem_product, Finset.mem_compl] at hij
    obtain ⟨hi, hj⟩ := hij
    dsimp only at hi hj
    have hne : i ≠ j := fun h => hj (h ▸ hi)
    rcases le_total j i with h | h
    · refine ⟨⟨(i, j), .inl hne, .inl h⟩, ?_, ?_⟩
      · simp [crossing, hi, hj]
      · simp [hi]
    · refine ⟨⟨(j, i), .inl hne.symm, .inl h⟩, ?_, ?_⟩
      · simp [crossing, hi, hj]
      · simp [hj]

/-- **C125** When every pair is linked with probability at least `p`, a sample on `N` vertices is disconnected with probability at most
`exp(N exp(-p N / 2)) - 1`: a few `log(N) / N` are enough. -/
theorem C125_bound (hN : 0 < N) (hM : ∀ i j, 0 ≤ M i j ∧ M i j ≤ 1) (ht : nTry ≠ some 0)
    (hG : ∀ u, sbm M z false loops u false pop nTry lt = some (.ok (G u))) {p : ℝ} (hp : 0 ≤ p) (hMp : ∀ i j, p ≤ M i j) :
    draws.real {u | ¬ StronglyConnected (G u).W.dense} ≤ Real.exp (N * Real.exp (-(p * N / 2))) - 1 := by
  classical
  set r := Real.exp (-(p * N / 2)) with hr
  have hr0 : 0 < r := Real.exp_pos _
  have h1 : ∀ A : Finset (Fin N), 2 * A.card ≤ N → ∏ e ∈ crossing loops A, (1 - M (z e.1.1) (z e.1.2)) ≤ r ^ A.card := by
    intro A hA
    have : ∏ e ∈ crossing loops A, (1 - M (z e.1.1) (z e.1.2)) ≤ ∏ e ∈ crossing loops A, Real.exp (-p) := by
      refine Finset.prod_le_prod (fun e _ => by linarith [(hM (z e.1.1) (z e.1.2)).2]) fun e _ => ?_
      have := Real.add_one_le_exp (-p)
      linarith [hMp (z e.1.1) (z e.1.2)]
    refine this.trans ?_
    rw [Finset.prod_const, card_crossing, hr, ← Real.exp_nat_mul, ← Real.exp_nat_mul, Real.exp_le_exp]
    have hle : A.card ≤ N := by omega
    push_cast [Nat.cast_sub hle]
    have h2 : (2 : ℝ) * A.card ≤ N := by exact_mod_cast hA
    have h3 : 0 ≤ p * (A.card : ℝ) * ((N : ℝ) / 2 - A.card) := by
      have : (0 : ℝ) ≤ (N : ℝ) / 2 - A.card := by linarith
      positivity
    nlinarith
  refine (C125_upper hN hM ht hG).trans ?_
  have h2 : ∑ A : Finset (Fin N) with A.Nonempty ∧ 2 * A.card ≤ N, ∏ e ∈ crossing loops A, (1 - M (z e.1.1) (z e.1.2)) ≤
      ∑ A : Finset (Fin N) with A ≠ ∅, r ^ A.card := by
    refine (Finset.sum_le_sum fun A hA => h1 A (Finset.mem_filter.1 hA).2.2).trans
      (Finset.sum_le_sum_of_subset_of_nonneg (fun A hA => ?_) fun A _ _ => by positivity)
    exact Finset.mem_filter.2 ⟨Finset.mem_univ _, (Finset.mem_filter.1 hA).2.1.ne_empty⟩
  refine h2.trans ?_
  have h3 := Fintype.sum_pow_mul_eq_add_pow (Fin N) r 1
  simp only [one_pow, mul_one, Fintype.card_fin] at h3
  have h4 : ∑ A : Finset (Fin N) with A ≠ ∅, r ^ A.card = (r + 1) ^ N - 1 := by
    rw [← h3, ← Finset.sum_erase_add _ _ (Finset.mem_univ (∅ : Finset (Fin N))), Finset.card_empty, pow_zero, add_sub_cancel_right]
    refine Finset.sum_congr ?_ fun _ _ => rfl
    ext A; simp
  rw [h4, Real.exp_nat_mul]
  have := pow_le_pow_left₀ (by linarith) (Real.add_one_le_exp r) N
  linarith

/-- **C125** With `connected=True` and `n_try` trials, the constructor raises ValueError with at most the power `n_try` of that bound. -/
theorem C125_trials (hN : 0 < N) (hM : ∀ i j, 0 ≤ M i j ∧ M i j ≤ 1) (hlt : lt = .combinatorial ∨ lt = .normalized) {p : ℝ} (hp : 0 ≤ p)
    (hMp : ∀ i j, p ≤ M i j) (t : ℕ) :
    draws.real {u | sbm M z false loops u true pop (some t) lt = some (.error .valueError)} ≤ (Real.exp (N * Real.exp (-(p * N / 2))) - 1) ^ t := by
  classical
  have := fun u => plain (z := z) (directed := false) (loops := loops) hM hlt pop (nTry := some 1) (by simp) u
  choose G hG _ using this
  have h1 := C125_bound hN hM (by simp) hG hp hMp
  have h2 := (C123_trials (z := z) (directed := false) (loops := loops) (pop := pop) hN hM hlt rfl t).1
  set q := draws.real {u | ∃ g, sbm M z false loops u false pop (some 1) lt = some (.ok g) ∧ StronglyConnected g.W.dense} with hq
  have hset : {u | ∃ g, sbm M z false loops u false pop (some 1) lt = some (.ok g) ∧ StronglyConnected g.W.dense} = {u | StronglyConnected (G u).W.dense} := by
    ext u
    simp only [Set.mem_setOf_eq]
    constructor
    · rintro ⟨g, hg, h⟩
      rw [hG u] at hg
      obtain rfl : G u = g := by simpa using hg
      exact h
    · intro h; exact ⟨_, hG u, h⟩
  have hq1 : 0 ≤ 1 - q := by
    have : q ≤ 1 := by rw [hq]; exact measureReal_le_one
    linarith
  have hle : 1 - q ≤ Real.exp (N * Real.exp (-(p * N / 2))) - 1 := by
    refine le_trans ?_ h1
    have hu : (1 : ℝ) ≤ draws.real {u | StronglyConnected (G u).W.dense} + draws.real {u | ¬ StronglyConnected (G u).W.dense} := by
      have h3 := measureReal_union_le (μ := draws) {u | StronglyConnected (G u).W.dense} {u | ¬ StronglyConnected (G u).W.dense}
      have h4 : {u | StronglyConnected (G u).W.dense} ∪ {u | ¬ StronglyConnected (G u).W.dense} = Set.univ := by
        ext u; simp [em]
      rw [h4, probReal_univ] at h3
      exact h3
    rw [hq, hset]
    linarith
  rw [Measure.real, h2, ENNReal.toReal_ofReal (pow_nonneg hq1 t)]
  exact pow_le_pow_left₀ hq1 hle t

theorem RandomGraph.er_sbm {p : ℝ} {G : (ℕ → ℝ) → Graph N ℝ} (hG : ∀ u, erdosRenyi N p false loops false u pop nTry lt = some (.ok (G u))) :
    ∃ (M : Matrix (Fin 1) (Fin 1) ℝ) (z : Fin N → Fin 1), (∀ i j, M i j = p) ∧ ∀ u, sbm M z false loops u false pop nTry lt = some (.ok (G u)) := by
  obtain ⟨⟨M, q', h1, h2⟩, -⟩ := (C74_probabilities 1 (.scalar p) .default).1 p rfl
  refine ⟨M, sbmLabels (fun _ : Fin N => 0) none, fun i j => by rw [h2, if_pos (Subsingleton.elim _ _)], fun u => ?_⟩
  have := hG u
  unfold erdosRenyi at this
  rwa [h1] at this

/-- **C125** `ErdosRenyi(N, p)` with at least two vertices: the probability of a disconnected graph, from below (a vertex without neighbours) and from above. -/
theorem C125_erdosRenyi (hN : 2 ≤ N) {p : ℝ} (hp : 0 ≤ p ∧ p ≤ 1) (ht : nTry ≠ some 0)
    (hG : ∀ u, erdosRenyi N p false loops false u pop nTry lt = some (.ok (G u))) :
    (1 - p) ^ (N - 1) ≤ draws.real {u | ¬ StronglyConnected (G u).W.dense} ∧
    draws.real {u | ¬ StronglyConnected (G u).W.dense} ≤ ∑ m ∈ Finset.Icc 1 (N / 2), N.choose m * (1 - p) ^ (m * (N - m)) ∧
    draws.real {u | ¬ StronglyConnected (G u).W.dense} ≤ Real.exp (N * Real.exp (-(p * N / 2))) - 1 := by
  classical
  obtain ⟨M, z, hM, hS⟩ := er_sbm hG
  have hM1 : ∀ i j, 0 ≤ M i j ∧ M i j ≤ 1 := fun i j => by rw [hM]; exact hp
  have hN0 : 0 < N := by omega
  have hprod : ∀ A : Finset (Fin N), ∏ e ∈ crossing loops A, (1 - M (z e.1.1) (z e.1.2)) = (1 - p) ^ (A.card * (N - A.card)) := fun A => by
    simp only [hM]
    rw [Finset.prod_const, card_crossing]
  refine ⟨?_, ?_, C125_bound hN0 hM1 ht hS hp.1 fun i j => (hM i j).ge⟩
  · have h := C125_lower hN0 hM1 ht hS (A := {⟨0, hN0⟩}) (Finset.singleton_nonempty _) fun h => by
      have := congrArg Finset.card h
      rw [Finset.card_singleton, Finset.card_univ, Fintype.card_fin] at this
      omega
    rw [hprod, Finset.card_singleton, one_mul] at h
    exact h
  · refine (C125_upper hN0 hM1 ht hS).trans (le_of_eq ?_)
    simp only [hprod]
    have h := Finset.sum_powerset_apply_card (x := (Finset.univ : Finset (Fin N))) (fun m => if 1 ≤ m ∧ m ≤ N / 2 then (1 - p) ^ (m * (N - m)) else 0)
    rw [Finset.powerset_univ, Finset.card_univ, Fintype.card_fin] at h
    rw [Finset.sum_filter]
    refine Eq.trans (Finset.sum_congr rfl fun A _ => ?_) (h.trans ?_)
    · refine if_congr ?_ rfl rfl
      rw [Finset.one_le_card, Nat.le_div_iff_mul_le (by norm_num), mul_comm]
    · have hsub : Finset.Icc 1 (N / 2) ⊆ Finset.range (N + 1) := fun m hm => by
        rw [Finset.mem_Icc] at hm
        rw [Finset.mem_range]
        omega
      rw [← Finset.sum_subset hsub fun m _ hm => by rw [Finset.mem_Icc] at hm; simp [hm]]
      refine Finset.sum_congr rfl fun m hm => ?_
      rw [if_pos (Finset.mem_Icc.1 hm), nsmul_eq_mul]

namespace RandomGraph

open Classical in
/-- the pairs with an end at `v` -/
noncomputable def star (loops : Bool) (v : Fin N) : Finset (Pair N false loops) := Finset.univ.filter fun e => e.1.1 = v ∨ e.1.2 = v

/-- the other end -/
def other (v : Fin N) {loops : Bool} (e : Pair N false loops) : Fin N := if e.1.1 = v then e.1.2 else e.1.1

theorem star_ends {v : Fin N} {e : Pair N false loops} (he : e ∈ star loops v) : e.1 = (v, other v e) ∨ e.1 = (other v e, v) := by
  classical
  simp only [star, Finset.mem_filter, Finset.mem_univ, true_and] at he
  unfold other
  by_cases h : e.1.1 = v
  · rw [if_pos h]; exact .inl (Prod.ext h rfl)
  · rw [if_neg h]; exact .inr (Prod.ext rfl (he.resolve_left h))

theorem other_inj {v : Fin N} {e e' : Pair N false loops} (he : e ∈ star loops v) (he' : e' ∈ star loops v) (h : other v e = other v e') : e = e' := by
  have hle : ∀ e : Pair N false loops, e.1.2 ≤ e.1.1 := fun e => e.2.2.resolve_right (by simp)
  have h1 := hle e
  have h2 := hle e'
  refine Subtype.ext ?_
  rcases star_ends he with a | a <;> rcases star_ends he' with b | b
  · rw [a, b, h]
  · rw [a] at h1; rw [b] at h2; rw [a, b]; dsimp only at h1 h2; rw [h] at h1 ⊢; exact Prod.ext (le_antisymm h2 h1) (le_antisymm h1 h2)
  · rw [a] at h1; rw [b] at h2; rw [a, b]; dsimp only at h1 h2; rw [h] at h1 ⊢; exact Prod.ext (le_antisymm h2 h1) (le_antisymm h1 h2)
  · rw [a, b, h]

theorem exists_pair {v j : Fin N} (h : v ≠ j ∨ loops = true) : ∃ e ∈ star loops v, other v e = j := by
  classical
  rcases le_total j v with hl | hl
  · refine ⟨⟨(v, j), h, .inl hl⟩, by simp [star], by simp [other]⟩
  · refine ⟨⟨(j, v), h.imp_left Ne.symm, .inl hl⟩, by simp [star], ?_⟩
    unfold other
    dsimp only
    split_ifs with hj
    · exact hj.symm
    · rfl

open Classical in
/-- the number of neighbours counts the successes at the vertex -/
theorem card_neighbours (C : Finset (Pair N false loops)) (v : Fin N) :
    (Finset.univ.filter fun j => matOf false loops C v j ≠ 0).card = ((star loops v).filter fun e => e ∈ C).card := by
  symm
  refine Finset.card_bij (fun e _ => other v e) ?_ ?_ ?_
  · intro e he
    obtain ⟨h1, h2⟩ := Finset.mem_filter.1 he
    rw [Finset.mem_filter]
    refine ⟨Finset.mem_univ _, fun h0 => ?_⟩
    have := (mat_zero C v (other v e)).1 h0 e h2
    rcases star_ends h1 with a | a
    · exact this.1 a
    · exact this.2 a
  · intro e he e' he' h
    exact other_inj (Finset.mem_filter.1 he).1 (Finset.mem_filter.1 he').1 h
  · intro j hj
    have h0 := (Finset.mem_filter.1 hj).2
    rw [Ne, mat_zero] at h0
    push Not at h0
    obtain ⟨e, he, h1⟩ := h0
    have hs : e ∈ star loops v := by
      rw [star, Finset.mem_filter]
      refine ⟨Finset.mem_univ _, ?_⟩
      by_cases h2 : e.1 = (v, j)
      · rw [h2]; exact .inl rfl
      · rw [h1 h2]; exact .inr rfl
    refine ⟨e, Finset.mem_filter.2 ⟨hs, he⟩, ?_⟩
    unfold other
    by_cases h2 : e.1 = (v, j)
    · rw [h2]; simp
    · rw [h1 h2]
      dsimp only
      split_ifs with h3
      · exact h3.symm
      · rfl

theorem sum_star (f : Fin N → Fin N → ℝ) (hf : ∀ i j, f i j = f j i) (v : Fin N) :
    ∑ e ∈ star loops v, f e.1.1 e.1.2 = ∑ j, if v ≠ j ∨ loops = true then f v j else 0 := by
  classical
  rw [← Finset.sum_filter]
  refine Finset.sum_bij (fun e _ => other v e) ?_ ?_ ?_ ?_
  · intro e he
    rw [Finset.mem_filter]
    refine ⟨Finset.mem_univ _, ?_⟩
    rcases star_ends he with a | a
    · have := e.2.1; rw [a] at this; exact this
    · have := e.2.1; rw [a] at this; exact this.imp_left Ne.symm
  · intro e he e' he' h
    exact other_inj he he' h
  · intro j hj
    obtain ⟨e, h1, h2⟩ := exists_pair (Finset.mem_filter.1 hj).2
    exact ⟨e, h1, h2⟩
  · intro e he
    rcases star_ends he with a | a
    · rw [a]
    · rw [a]; exact hf _ _

end RandomGraph

open Classical in
/-- **C125** The degrees: `G.d[v]` has the mean of the probabilities of the pairs of `v`, and is seldom far from it (Hoeffding), for all the vertices at once
up to the factor `N`. -/
theorem C125_degrees (hN : 0 < N) (hM : ∀ i j, 0 ≤ M i j ∧ M i j ≤ 1) (hMs : ∀ i j, M i j = M j i) (ht : nTry ≠ some 0)
    (hG : ∀ u, sbm M z false loops u false pop nTry lt = some (.ok (G u))) :
    (∀ v, ∫ u, degree (G u).W v ∂draws = ∑ j, if v ≠ j ∨ loops = true then M (z v) (z j) else 0) ∧
    (∀ v eps, 0 ≤ eps → draws.real {u | eps ≤ |degree (G u).W v - ∑ j, if v ≠ j ∨ loops = true then M (z v) (z j) else 0|} ≤
      2 * Real.exp (-(2 * eps ^ 2) / N)) ∧
    ∀ eps, 0 ≤ eps → draws.real {u | ∃ v, eps ≤ |degree (G u).W v - ∑ j, if v ≠ j ∨ loops = true then M (z v) (z j) else 0|} ≤
      N * (2 * Real.exp (-(2 * eps ^ 2) / N)) := by
  have hbuilt : ∀ u, (G u).Built := fun u => by
    obtain ⟨-, a, ha, -⟩ := sbm_ok M z false loops u hN (hG u)
    obtain ⟨g, g1, g2, -⟩ := Graph.ofCsr_canonical _ (Sp.canonical_ofDense (sampleW M z false loops u (a * sampleCalls N false loops))) (known hN hG)
    obtain rfl : g = G u := Except.ok.inj (g1.symm.trans ha)
    exact g2
  have hdeg : ∀ u v, degree (G u).W v = ((successes (fun a (e : star loops v) => edgeIdx false loops a e.1) (fun e => prob M z false loops e.1) u 0).card : ℝ) := by
    intro u v
    rw [C07_degree _ (hbuilt u)]
    have hd := dense_eq hN hM ht hG u
    have h1 : (Finset.univ.filter fun j => (G u).W.dense j v ≠ 0) = Finset.univ.filter fun j => (G u).W.dense v j ≠ 0 := by
      refine Finset.filter_congr fun j _ => ?_
      rw [hd, mat_symm]
    rw [h1, add_self_div_two, hd, card_neighbours]
    congr 1
    rw [← Finset.card_map (Function.Embedding.subtype fun e => e ∈ star loops v)]
    congr 1
    ext e
    simp only [Finset.mem_filter, Finset.mem_map, Function.Embedding.coe_subtype, mem_successes, Subtype.exists, exists_and_right, exists_eq_right]
    exact ⟨fun h => ⟨h.1, h.2⟩, fun ⟨h1, h2⟩ => ⟨h1, h2⟩⟩
  have hsum : ∀ v, ∑ e : star loops v, prob M z false loops e.1 = ∑ j, if v ≠ j ∨ loops = true then M (z v) (z j) else 0 := fun v => by
    rw [← sum_star (loops := loops) (fun i j => M (z i) (z j)) (fun i j => hMs _ _) v]
    exact Finset.sum_coe_sort (star loops v) fun e => M (z e.1.1) (z e.1.2)
  have hcard : ∀ v, (Fintype.card (star loops v) : ℝ) ≤ N := fun v => by
    have : (star loops v).card ≤ (Finset.univ : Finset (Fin N)).card :=
      Finset.card_le_card_of_injOn (other v) (fun _ _ => Finset.mem_univ _) fun e he e' he' h => other_inj he he' h
    rw [Finset.card_univ, Fintype.card_fin] at this
    rw [Fintype.card_coe]
    exact_mod_cast this
  have htail : ∀ v eps, 0 ≤ eps → draws.real {u | eps ≤ |degree (G u).W v - ∑ j, if v ≠ j ∨ loops = true then M (z v) (z j) else 0|} ≤
      2 * Real.exp (-(2 * eps ^ 2) / N) := by
    intro v eps he
    have h := count_tail (idx := fun a (e : star loops v) => edgeIdx false loops a e.1) (p := fun e => prob M z false loops e.1)
      (fun e e' h => Subtype.ext (edgeIdx_inj false loops 0 e.1 0 e'.1 h).2) (fun e => prob_mem hM e.1) he
    rw [hsum] at h
    simp only [← hdeg] at h
    by_cases h0 : Fintype.card (star loops v) = 0
    · haveI : IsEmpty (star loops v) := Fintype.card_eq_zero_iff.1 h0
      have hz : ∀ u, degree (G u).W v - (∑ j, if v ≠ j ∨ loops = true then M (z v) (z j) else 0) = 0 := fun u => by
        rw [hdeg, ← hsum]
        simp [Finset.eq_empty_of_isEmpty]
      simp only [hz, abs_zero]
      rcases he.eq_or_lt with rfl | hpos
      · simp
      · rw [show {u : ℕ → ℝ | eps ≤ 0} = ∅ by ext u; simp [hpos], measureReal_empty]
        positivity
    · refine h.trans ?_
      have hpos : (0 : ℝ) < Fintype.card (star loops v) := by exact_mod_cast Nat.pos_of_ne_zero h0
      have : -(2 * eps ^ 2) / (Fintype.card (star loops v) : ℝ) ≤ -(2 * eps ^ 2) / N := by
        rw [neg_div, neg_div, neg_le_neg_iff]
        exact div_le_div_of_nonneg_left (by positivity) hpos (hcard v)
      have := Real.exp_le_exp.2 this
      linarith
  refine ⟨fun v => ?_, htail, fun eps he => ?_⟩
  · simp only [hdeg]
    rw [count_mean fun e => prob_mem hM e.1, hsum]
  · refine le_trans (measureReal_mono (s₂ := ⋃ v ∈ (Finset.univ : Finset (Fin N)),
      {u | eps ≤ |degree (G u).W v - ∑ j, if v ≠ j ∨ loops = true then M (z v) (z j) else 0|}) (fun u hu => ?_) (measure_ne_top _ _)) ?_
    · obtain ⟨v, hv⟩ := hu
      simp only [Set.mem_iUnion]
      exact ⟨v, Finset.mem_univ v, hv⟩
    · refine (measureReal_biUnion_finset_le _ _).trans ((Finset.sum_le_sum fun v _ => htail v eps he).trans (le_of_eq ?_))
      rw [Finset.sum_const, Finset.card_univ, Fintype.card_fin, nsmul_eq_mul]

/-- The hypotheses hold together, for the random graph on four vertices. -/
example (pop : ℕ → Pop 4) : ∃ G : (ℕ → ℝ) → Graph 4 ℝ, ∀ u, erdosRenyi 4 (1 / 2) false false false u pop (some 3) .combinatorial = some (.ok (G u)) := by
  obtain ⟨⟨M, q', h1, h2⟩, -⟩ := (C74_probabilities 1 (.scalar (1 / 2)) .default).1 (1 / 2) rfl
  have := fun u => plain (M := M) (z := sbmLabels (fun _ : Fin 4 => 0) none) (directed := false) (loops := false)
    (by intro i j; rw [h2, if_pos (Subsingleton.elim _ _)]; norm_num) (lt := .combinatorial) (.inl rfl) pop (nTry := some 3) (by simp) u
  choose G hG _ using this
  exact ⟨G, fun u => by unfold erdosRenyi; rw [h1]; exact hG u⟩

end

end PyGSP
