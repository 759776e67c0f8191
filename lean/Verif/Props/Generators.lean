import Verif.Lemmas.Generators

/-!
# C67-C72: the classical graphs
-/

namespace PyGSP

open Matrix Spec Gen

variable {n : ℕ}

namespace Gen

/-- a vertex is reached by following arcs whose end points are consecutive numbers -/
theorem reach_up {M : Matrix (Fin n) (Fin n) ℝ} (a b : ℕ) (hab : a ≤ b) (hb : b < n)
    (h : ∀ i (hi : i + 1 < n), a ≤ i → i < b → M ⟨i, by omega⟩ ⟨i + 1, hi⟩ ≠ 0) : Reach M ⟨a, by omega⟩ ⟨b, hb⟩ := by
  induction b with
  | zero =>
    have : a = 0 := by omega
    subst this
    exact .refl
  | succ b ih =>
    rcases Nat.eq_or_lt_of_le hab with rfl | hlt
    · exact .refl
    · exact (ih (by omega) (by omega) fun i hi h1 h2 => h i hi h1 (by omega)).tail (h b hb (by omega) (by omega))

theorem reach_symm {M : Matrix (Fin n) (Fin n) ℝ} (hu : Undirected M) {i j : Fin n} (h : Reach M i j) : Reach M j i := by
  induction h with
  | refl => exact .refl
  | @tail b c _ hbc ih =>
    have h1 : Arc M c b := by
      unfold Arc at *
      rw [hu]; exact hbc
    exact (Relation.ReflTransGen.single h1).trans ih

theorem connected_from_zero {M : Matrix (Fin n) (Fin n) ℝ} (hu : Undirected M) (hn : 0 < n) (h : ∀ v, Reach M ⟨0, hn⟩ v) :
    StronglyConnected M := fun i j => (reach_symm hu (h i)).trans (h j)

end Gen

/-! ## C67: Path -/

/-- **The weights of `Path(N)`**: one between consecutive vertices (only forward with `directed=True`), zero elsewhere. -/
theorem C67_weights {N : ℕ} (hN : 0 < N) (directed : Bool) {lt : LapType} (hlt : lt = .combinatorial ∨ lt = .normalized) :
    ∃ g, path N directed lt = .ok g ∧ g.Built ∧ g.lapType = lt ∧
      ∀ i j, g.W.dense i j = if i.1 + 1 = j.1 ∨ (directed = false ∧ j.1 + 1 = i.1) then 1 else 0 := by
  unfold path
  rw [if_neg (by omega)]
  cases directed
  · rw [if_neg (by simp)]
    obtain ⟨g, h1, h2, h3, h4⟩ := ofEdges_ok (N := N)
      (l := ones (List.range (N - 1) ++ List.range' 1 (N - 1)) (List.range' 1 (N - 1) ++ List.range (N - 1))) (by
        intro e he
        have := mem_ones he
        simp only [List.mem_append, List.mem_range, List.mem_range'_1] at this
        omega) hlt
    refine ⟨g, h1, h2, h4, fun i j => ?_⟩
    rw [h3, ones_append (by simp), weightAt_append, range'_eq_map]
    have e1 := weightAt_ones (N - 1) id (1 + ·) i j
    have e2 := weightAt_ones (N - 1) (1 + ·) id i j
    rw [List.map_id] at e1 e2
    rw [e1, e2, sum_unique _ _ (by intro p _ q _ h h'; simp only [id] at h h'; omega),
      sum_unique _ _ (by intro p _ q _ h h'; simp only [id] at h h'; omega)]
    have hi := i.2
    have hj := j.2
    have a1 : (∃ p < N - 1, id p = i.1 ∧ 1 + p = j.1) ↔ i.1 + 1 = j.1 :=
      ⟨fun ⟨p, _, h⟩ => by simp only [id] at h; omega, fun h => ⟨i.1, by omega, rfl, by omega⟩⟩
    have a2 : (∃ p < N - 1, 1 + p = i.1 ∧ id p = j.1) ↔ j.1 + 1 = i.1 :=
      ⟨fun ⟨p, _, h⟩ => by simp only [id] at h; omega, fun h => ⟨j.1, by omega, by omega, rfl⟩⟩
    simp only [a1, a2, true_and]
    by_cases q1 : i.1 + 1 = j.1
    · rw [if_pos q1, if_neg (by omega), if_pos (.inl q1)]; norm_num
    · by_cases q2 : j.1 + 1 = i.1
      · rw [if_neg q1, if_pos q2, if_pos (.inr q2)]; norm_num
      · rw [if_neg q1, if_neg q2, if_neg (by omega)]; norm_num
  · rw [if_pos rfl]
    obtain ⟨g, h1, h2, h3, h4⟩ := ofEdges_ok (N := N) (l := ones (List.range (N - 1)) (List.range' 1 (N - 1))) (by
        intro e he
        have := mem_ones he
        simp only [List.mem_range, List.mem_range'_1] at this
        omega) hlt
    refine ⟨g, h1, h2, h4, fun i j => ?_⟩
    have e1 := weightAt_ones (N - 1) id (1 + ·) i j
    rw [List.map_id] at e1
    rw [h3, range'_eq_map, e1, sum_unique _ _ (by intro p _ q _ h h'; simp only [id] at h h'; omega)]
    have hj := j.2
    have a1 : (∃ p < N - 1, id p = i.1 ∧ 1 + p = j.1) ↔ i.1 + 1 = j.1 :=
      ⟨fun ⟨p, _, h⟩ => by simp only [id] at h; omega, fun h => ⟨i.1, by omega, rfl, by omega⟩⟩
    simp only [a1, Bool.true_eq_false, false_and, or_false]

/-- **`Path(N)` is a path**: `N - 1` edges; undirected and connected, or with `directed=True` directed (for `N ≥ 2`) with every
vertex reachable from the first one. -/
theorem C67_structure {N : ℕ} (hN : 0 < N) {directed : Bool} {lt : LapType} {g : Graph N ℝ} (h : path N directed lt = .ok g) :
    g.nEdges = N - 1 ∧ (directed = false → Undirected g.W.dense ∧ StronglyConnected g.W.dense) ∧
      (directed = true → (∀ v, Reach g.W.dense ⟨0, hN⟩ v) ∧ (2 ≤ N → ¬ Undirected g.W.dense ∧ ¬ StronglyConnected g.W.dense)) := by
  have hlt : lt = .combinatorial ∨ lt = .normalized := by
    by_contra hc
    cases lt with
    | combinatorial => simp at hc
    | normalized => simp at hc
    | other name =>
      unfold path at h
      rw [if_neg (by omega)] at h
      split at h <;> (rw [ofEdges_unknown] at h; · cases h)
      all_goals
        intro e he
        have := mem_ones he
        simp only [List.mem_append, List.mem_range, List.mem_range'_1] at this
        omega
  obtain ⟨g', h1, hb, -, hd⟩ := C67_weights hN directed hlt
  rw [h] at h1
  obtain rfl := Except.ok.inj h1
  have hup : ∀ v, Reach g.W.dense ⟨0, hN⟩ v := fun v => by
    refine reach_up 0 v.1 (by omega) v.2 fun i hi _ _ => ?_
    rw [hd, if_pos (.inl rfl)]
    norm_num
  have hcard : ((arcs g.W.dense).filter fun p => p.1 < p.2).card = N - 1 := by
    rw [← Finset.card_range (N - 1)]
    refine Finset.card_bij (fun p _ => p.1.1) ?_ ?_ ?_
    · rintro ⟨a, b⟩ hp
      obtain ⟨hp, hlt1⟩ := Finset.mem_filter.1 hp
      have hab : g.W.dense a b ≠ 0 := (Finset.mem_filter.1 hp).2
      rw [hd] at hab
      have := b.2
      rw [Finset.mem_range]
      rw [ne_eq, ite_eq_right_iff, Classical.not_imp] at hab
      simp only [Fin.lt_def] at hlt1
      show a.1 < N - 1
      omega
    · rintro ⟨a, b⟩ hp ⟨c, d⟩ hq heq
      obtain ⟨hp, hlt1⟩ := Finset.mem_filter.1 hp
      obtain ⟨hq, hlt2⟩ := Finset.mem_filter.1 hq
      have hab : g.W.dense a b ≠ 0 := (Finset.mem_filter.1 hp).2
      have hcd : g.W.dense c d ≠ 0 := (Finset.mem_filter.1 hq).2
      rw [hd, ne_eq, ite_eq_right_iff, Classical.not_imp] at hab hcd
      simp only [Fin.lt_def] at *
      have h1 : b.1 = d.1 := by omega
      exact Prod.ext (Fin.ext heq) (Fin.ext h1)
    · intro k hk
      rw [Finset.mem_range] at hk
      refine ⟨(⟨k, by omega⟩, ⟨k + 1, by omega⟩), Finset.mem_filter.2 ⟨Finset.mem_filter.2 ⟨Finset.mem_univ _, ?_⟩, ?_⟩, rfl⟩
      · show g.W.dense _ _ ≠ 0
        rw [hd, if_pos (.inl rfl)]; norm_num
      · simp [Fin.lt_def]
  have hl : ∀ i, g.W.dense i i = 0 := fun i => by rw [hd, if_neg (by omega)]
  cases directed
  · have hu : Undirected g.W.dense := fun i j => by
      rw [hd, hd]
      simp only [true_and]
      by_cases q : i.1 + 1 = j.1 ∨ j.1 + 1 = i.1
      · rw [if_pos q, if_pos q.symm]
      · rw [if_neg q, if_neg fun q' => q q'.symm]
    refine ⟨?_, fun _ => ⟨hu, connected_from_zero hu hN hup⟩, by simp⟩
    rw [C02_n_edges_undirected g hb hu, edges_card hu hl, hcard]
  · have hnu : 2 ≤ N → ¬ Undirected g.W.dense := fun h2 hu => by
      have := hu ⟨0, by omega⟩ ⟨1, by omega⟩
      rw [hd, hd, if_pos (.inl rfl), if_neg (by simp)] at this
      norm_num at this
    refine ⟨?_, by simp, fun _ => ⟨hup, fun h2 => ⟨hnu h2, fun hc => ?_⟩⟩⟩
    · have hall : ((arcs g.W.dense).filter fun p => p.1 < p.2) = arcs g.W.dense := by
        refine Finset.filter_true_of_mem ?_
        rintro ⟨a, b⟩ hp
        have hab : g.W.dense a b ≠ 0 := (Finset.mem_filter.1 hp).2
        rw [hd, ne_eq, ite_eq_right_iff, Classical.not_imp] at hab
        simp only [Fin.lt_def] at *
        simp only [Bool.true_eq_false, false_and, or_false] at hab
        omega
      rcases Nat.lt_or_ge 1 N with h2 | h2
      · rw [C02_n_edges_directed g hb (hnu h2), ← hall, hcard]
      · have hu : Undirected g.W.dense := fun i j => by
          have : i = j := Fin.ext (by omega)
          rw [this]
        rw [C02_n_edges_undirected g hb hu, edges_card hu hl, hcard]
    · have hr := hc ⟨1, by omega⟩ ⟨0, by omega⟩
      rcases Relation.ReflTransGen.cases_tail hr with h4 | ⟨c, -, h4⟩
      · simp [Fin.ext_iff] at h4
      · have h4' : g.W.dense c ⟨0, by omega⟩ ≠ 0 := h4
        rw [hd, if_neg (by simp)] at h4'
        exact h4' rfl

/-- `Path(0)` and an unknown `lap_type` raise ValueError. -/
theorem C67_errors (directed : Bool) (lt : LapType) (N : ℕ) (name : String) :
    path 0 directed lt = .error .valueError ∧ path N directed (.other name) = .error .valueError := by
  refine ⟨if_pos rfl, ?_⟩
  unfold path
  split
  · rfl
  · split <;> (rw [ofEdges_unknown])
    all_goals
      intro e he
      have := mem_ones he
      simp only [List.mem_append, List.mem_range, List.mem_range'_1] at this
      omega

example : ∃ g, path 4 false .combinatorial = .ok g ∧ g.nEdges = 3 ∧ g.W.dense 1 2 = 1 ∧ g.W.dense 1 3 = 0 := by
  obtain ⟨g, h1, -, -, h2⟩ := C67_weights (N := 4) (by norm_num) false (.inl rfl)
  exact ⟨g, h1, (C67_structure (by norm_num) h1).1, by rw [h2]; exact if_pos (by decide), by rw [h2]; exact if_neg (by decide)⟩

/-! ## C68: Ring -/

namespace Gen

theorem ring_body_bound {N k : ℕ} (hN : 3 ≤ N) :
    ∀ e ∈ ((List.range (min k ((N - 1) / 2))).flatMap fun i : ℕ =>
      ones (List.range N) ((List.range N).map fun v => (v + i + 1) % N) ++
        ones ((List.range N).map fun v => (v + i + 1) % N) (List.range N)) ++
      (if 2 * k = N then ones ((List.range N).map fun v => (v + k + 1) % N) ((List.range N).map fun _ => 0) else []),
      e.1 < N ∧ e.2.1 < N := by
  have hm : ∀ a, a % N < N := fun a => Nat.mod_lt _ (by omega)
  intro e he
  rcases List.mem_append.1 he with he | he
  · rw [List.mem_flatMap] at he
    obtain ⟨i, -, he⟩ := he
    rcases List.mem_append.1 he with he | he
    · have := mem_ones he
      simp only [List.mem_range, List.mem_map] at this
      obtain ⟨h1, v, -, h2⟩ := this
      exact ⟨h1, h2 ▸ hm _⟩
    · have := mem_ones he
      simp only [List.mem_range, List.mem_map] at this
      obtain ⟨⟨v, -, h2⟩, h1⟩ := this
      exact ⟨h2 ▸ hm _, h1⟩
  · split at he
    · have := mem_ones he
      simp only [List.mem_range, List.mem_map] at this
      obtain ⟨⟨v, -, h2⟩, w, -, h1⟩ := this
      exact ⟨h2 ▸ hm _, by omega⟩
    · cases he

/-- the weights of the loop of `Ring`: the number of `i` such that the vertices are `i + 1` steps apart -/
theorem ring_body_weight {N m : ℕ} {i j : ℕ} (hi : i < N) (hj : j < N) :
    weightAt ((List.range m).flatMap fun d : ℕ =>
      ones (List.range N) ((List.range N).map fun v => (v + d + 1) % N) ++
        ones ((List.range N).map fun v => (v + d + 1) % N) (List.range N)) i j =
      ∑ d ∈ Finset.range m, ((if (i + d + 1) % N = j then 1 else 0) + if (j + d + 1) % N = i then 1 else 0) := by
  rw [weightAt_flatMap]
  refine Finset.sum_congr rfl fun d _ => ?_
  rw [weightAt_append]
  have e1 := weightAt_ones N id (fun v => (v + d + 1) % N) i j
  have e2 := weightAt_ones N (fun v => (v + d + 1) % N) id i j
  rw [List.map_id] at e1 e2
  rw [e1, e2, sum_unique _ _ (by intro p _ q _ h h'; exact h.1.trans h'.1.symm),
    sum_unique _ _ (by intro p _ q _ h h'; exact h.2.trans h'.2.symm)]
  congr 1
  · refine if_congr ⟨fun ⟨p, _, h1, h2⟩ => ?_, fun h => ⟨i, hi, rfl, h⟩⟩ rfl rfl
    rw [← h1]; exact h2
  · refine if_congr ⟨fun ⟨p, _, h1, h2⟩ => ?_, fun h => ⟨j, hj, h, rfl⟩⟩ rfl rfl
    rw [← h2]; exact h1

end Gen

open Classical in
/-- **The weights of `Ring(N, k)`** for `N ≥ 3` and `2k < N`: one between the vertices that are at most `k` steps apart on the
cycle, zero elsewhere. -/
theorem C68_weights {N k : ℕ} (hN : 3 ≤ N) (hk : 2 * k < N) {lt : LapType} (hlt : lt = .combinatorial ∨ lt = .normalized) :
    ∃ g, ring N k lt = .ok g ∧ g.Built ∧ g.lapType = lt ∧ ∀ i j, g.W.dense i j =
      if ∃ d, 1 ≤ d ∧ d ≤ k ∧ ((i.1 + d) % N = j.1 ∨ (j.1 + d) % N = i.1) then 1 else 0 := by
  unfold ring
  rw [if_neg (by omega), if_neg (by omega)]
  obtain ⟨g, h1, h2, h3, h4⟩ := ofEdges_ok (ring_body_bound (k := k) hN) hlt
  refine ⟨g, h1, h2, h4, fun i j => ?_⟩
  have hi := i.2
  have hj := j.2
  rw [h3, if_neg (by omega), List.append_nil, ring_body_weight hi hj, Nat.min_eq_left (by omega), Finset.sum_add_distrib]
  have key : ∀ a b : ℕ, a < N → b < N → ∀ d, d < k → (a + d + 1) % N = b → d + 1 = if a < b then b - a else N + b - a := by
    intro a b ha hb d hd h
    rw [Nat.add_assoc, add_mod_eq ha (by omega)] at h
    split at h <;> split <;> omega
  rw [sum_unique _ _ (fun p hp q hq h h' => by
      have := key _ _ hi hj p hp h; have := key _ _ hi hj q hq h'; omega),
    sum_unique _ _ (fun p hp q hq h h' => by
      have := key _ _ hj hi p hp h; have := key _ _ hj hi q hq h'; omega)]
  by_cases q1 : ∃ d < k, (i.1 + d + 1) % N = j.1
  · obtain ⟨d, hd, hd'⟩ := q1
    have e1 := key _ _ hi hj d hd hd'
    rw [if_pos ⟨d, hd, hd'⟩, if_neg, if_pos ⟨d + 1, by omega, by omega, .inl (by rw [← Nat.add_assoc]; exact hd')⟩]
    · norm_num
    · rintro ⟨d', h1, h2⟩
      have e2 := key _ _ hj hi d' h1 h2
      split at e1 <;> split at e2 <;> omega
  · rw [if_neg q1, zero_add]
    refine if_congr ⟨fun ⟨d, hd, h⟩ => ⟨d + 1, by omega, by omega, .inr (by rw [← Nat.add_assoc]; exact h)⟩, ?_⟩ rfl rfl
    rintro ⟨d, h1, h2, h | h⟩
    · exact absurd ⟨d - 1, by omega, by rw [Nat.add_assoc, Nat.sub_add_cancel h1]; exact h⟩ q1
    · exact ⟨d - 1, by omega, by rw [Nat.add_assoc, Nat.sub_add_cancel h1]; exact h⟩

open Classical in
/-- **`Ring(N, k)` is a ring**: undirected, without loops, every vertex has `2k` neighbours, `N k` edges, and connected as soon as
`k ≥ 1`; the weights are invariant under rotations. -/
theorem C68_structure {N k : ℕ} (hN : 3 ≤ N) (hk : 2 * k < N) {lt : LapType} {g : Graph N ℝ} (h : ring N k lt = .ok g) :
    Undirected g.W.dense ∧ (∀ i, g.W.dense i i = 0) ∧ (∀ i, (Finset.univ.filter fun j => g.W.dense i j ≠ 0).card = 2 * k) ∧
      g.nEdges = N * k ∧ (1 ≤ k → StronglyConnected g.W.dense) ∧
      ∀ (i j : Fin N) (t : ℕ), g.W.dense ⟨(i.1 + t) % N, Nat.mod_lt _ (by omega)⟩ ⟨(j.1 + t) % N, Nat.mod_lt _ (by omega)⟩ =
        g.W.dense i j := by
  have hlt : lt = .combinatorial ∨ lt = .normalized := by
    cases lt with
    | combinatorial => simp
    | normalized => simp
    | other name =>
      unfold ring at h
      rw [if_neg (by omega), if_neg (by omega), ofEdges_unknown (ring_body_bound hN)] at h
      cases h
  obtain ⟨g', h1, hb, -, hd⟩ := C68_weights hN hk hlt
  rw [h] at h1
  obtain rfl := Except.ok.inj h1
  have hu : Undirected g.W.dense := fun i j => by
    rw [hd, hd]
    refine if_congr (exists_congr fun d => ?_) rfl rfl
    tauto
  have hl : ∀ i, g.W.dense i i = 0 := fun i => by
    rw [hd, if_neg]
    rintro ⟨d, h1, h2, h3⟩
    have hi := i.2
    rw [add_mod_eq hi (by omega)] at h3
    split at h3 <;> omega
  have hne : ∀ i j, g.W.dense i j ≠ 0 ↔ ∃ d, 1 ≤ d ∧ d ≤ k ∧ ((i.1 + d) % N = j.1 ∨ (j.1 + d) % N = i.1) := by
    intro i j
    rw [hd, ne_eq, ite_eq_right_iff, Classical.not_imp]
    exact and_iff_left one_ne_zero
  have hdeg : ∀ i, (Finset.univ.filter fun j => g.W.dense i j ≠ 0).card = 2 * k := by
    intro i
    have hi := i.2
    rw [← Finset.card_range (2 * k)]
    refine (Finset.card_bij (fun p _ => if p < k then (⟨(i.1 + (p + 1)) % N, Nat.mod_lt _ (by omega)⟩ : Fin N)
      else ⟨(i.1 + (N - (p - k + 1))) % N, Nat.mod_lt _ (by omega)⟩) ?_ ?_ ?_).symm
    · intro p hp
      rw [Finset.mem_range] at hp
      refine Finset.mem_filter.2 ⟨Finset.mem_univ _, (hne _ _).2 ?_⟩
      by_cases hpk : p < k
      · rw [if_pos hpk]
        exact ⟨p + 1, by omega, by omega, .inl rfl⟩
      · rw [if_neg hpk]
        refine ⟨p - k + 1, by omega, by omega, .inr ?_⟩
        simp only
        rw [Nat.mod_add_mod, Nat.add_assoc, Nat.sub_add_cancel (by omega), Nat.add_mod_right, Nat.mod_eq_of_lt hi]
    · intro p hp q hq heq
      rw [Finset.mem_range] at hp hq
      have e : ∀ r, r < 2 * k → ((if r < k then (⟨(i.1 + (r + 1)) % N, Nat.mod_lt _ (by omega)⟩ : Fin N)
          else ⟨(i.1 + (N - (r - k + 1))) % N, Nat.mod_lt _ (by omega)⟩) : Fin N).1 =
          (if r < k then (if i.1 + (r + 1) < N then i.1 + (r + 1) else i.1 + (r + 1) - N)
            else (if i.1 + (N - (r - k + 1)) < N then i.1 + (N - (r - k + 1)) else i.1 + (N - (r - k + 1)) - N)) := by
        intro r hr
        split
        · exact add_mod_eq hi (by omega)
        · exact add_mod_eq hi (by omega)
      have := congrArg Fin.val heq
      rw [e p hp, e q hq] at this
      split at this <;> split at this <;> split at this <;> split at this <;> omega
    · intro j hj
      obtain ⟨d, h1, h2, h3⟩ := (hne _ _).1 (Finset.mem_filter.1 hj).2
      have hj2 := j.2
      rcases h3 with h3 | h3
      · refine ⟨d - 1, Finset.mem_range.2 (by omega), ?_⟩
        rw [if_pos (by omega)]
        exact Fin.ext (by simp only [Nat.sub_add_cancel h1]; exact h3)
      · refine ⟨d - 1 + k, Finset.mem_range.2 (by omega), ?_⟩
        rw [if_neg (by omega)]
        refine Fin.ext ?_
        simp only
        have : d - 1 + k - k + 1 = d := by omega
        rw [this, ← h3, Nat.mod_add_mod, Nat.add_assoc, Nat.add_sub_cancel' (by omega), Nat.add_mod_right, Nat.mod_eq_of_lt hj2]
  refine ⟨hu, hl, hdeg, ?_, fun hk1 => ?_, fun i j t => ?_⟩
  · have := two_edges_card hu hl
    rw [Finset.sum_congr rfl fun i _ => hdeg i, Finset.sum_const, Finset.card_univ, Fintype.card_fin, smul_eq_mul] at this
    rw [C02_n_edges_undirected g hb hu]
    have : 2 * (edges g.W.dense).card = 2 * (N * k) := by rw [this]; ring
    omega
  · refine connected_from_zero hu (by omega) fun v => ?_
    refine reach_up 0 v.1 (by omega) v.2 fun i hi _ _ => ?_
    rw [hne]
    exact ⟨1, le_refl _, hk1, .inl (Nat.mod_eq_of_lt hi)⟩
  · rw [hd, hd]
    refine if_congr (exists_congr fun d => and_congr_right fun _ => and_congr_right fun _ => ?_) rfl rfl
    have key : ∀ a b : Fin N, ((a.1 + t) % N + d) % N = (b.1 + t) % N ↔ (a.1 + d) % N = b.1 := by
      intro a b
      have hb := b.2
      rw [Nat.mod_add_mod, Nat.add_right_comm]
      constructor
      · intro h
        have : (a.1 + d) % N = b.1 % N := Nat.ModEq.add_right_cancel' t h
        rwa [Nat.mod_eq_of_lt hb] at this
      · intro h
        rw [← Nat.mod_add_mod, h]
    exact or_congr (key i j) (key j i)

/-- Too few vertices or too many neighbours: ValueError. -/
theorem C68_errors (N k : ℕ) (lt : LapType) (h : N < 3 ∨ N < 2 * k) : ring N k lt = .error .valueError := by
  unfold ring
  split
  · rfl
  · rw [if_pos (h.resolve_left ‹_›)]

/-- Violation: for `2k = N` (for instance `Ring(4, 2)`), which the constructor accepts, the graph is not a ring: the vertex 0 has a
self-loop, the graph is directed, and opposite vertices other than 0 are not connected. -/
theorem C68_even_violated {N k : ℕ} (hN : 3 ≤ N) (hk : 2 * k = N) {lt : LapType} (hlt : lt = .combinatorial ∨ lt = .normalized) :
    ∃ g, ring N k lt = .ok g ∧ g.Built ∧ (∀ v : Fin N, v.1 = 0 → g.W.dense v v = 1) ∧ ¬ Undirected g.W.dense ∧
      ∀ v w : Fin N, 1 ≤ v.1 → v.1 + k = w.1 → g.W.dense v w = 0 ∧ g.W.dense w v = 0 := by
  unfold ring
  rw [if_neg (by omega), if_neg (by omega)]
  obtain ⟨g, h1, h2, h3, h4⟩ := ofEdges_ok (ring_body_bound (k := k) hN) hlt
  have hmin : min k ((N - 1) / 2) = k - 1 := by omega
  have hd : ∀ i j : Fin N, g.W.dense i j =
      ∑ d ∈ Finset.range (k - 1), ((if (i.1 + d + 1) % N = j.1 then 1 else 0) + if (j.1 + d + 1) % N = i.1 then 1 else 0) +
        if j.1 = 0 then 1 else 0 := by
    intro i j
    have hi := i.2
    rw [h3, if_pos hk, weightAt_append, ring_body_weight hi j.2, hmin, weightAt_ones]
    congr 1
    have key : ∀ p < N, ∀ q < N, (p + k + 1) % N = i.1 → (q + k + 1) % N = i.1 → p = q := by
      intro p hp q hq e1 e2
      rw [Nat.add_assoc, add_mod_eq hp (by omega)] at e1
      rw [Nat.add_assoc, add_mod_eq hq (by omega)] at e2
      split at e1 <;> split at e2 <;> omega
    rw [sum_unique _ _ fun p hp q hq h h' => key p hp q hq h.1 h'.1]
    refine if_congr ⟨fun ⟨p, _, _, h⟩ => h.symm, fun h => ?_⟩ rfl rfl
    by_cases hik : k + 1 ≤ i.1
    · exact ⟨i.1 - (k + 1), by omega, by rw [Nat.mod_eq_of_lt (by omega)]; omega, h.symm⟩
    · refine ⟨i.1 + N - (k + 1), by omega, ?_, h.symm⟩
      have : i.1 + N - (k + 1) + k + 1 = i.1 + N := by omega
      rw [this, Nat.add_mod_right, Nat.mod_eq_of_lt hi]
  have hz : ∀ a b : ℕ, a < N → b < N → (a = b ∨ a + k = b ∨ b + k = a) → ∀ d ∈ Finset.range (k - 1),
      ((if (a + d + 1) % N = b then (1 : ℝ) else 0) + if (b + d + 1) % N = a then 1 else 0) = 0 := by
    intro a b ha hb hab d hd
    rw [Finset.mem_range] at hd
    rw [if_neg, if_neg, add_zero]
    · intro h
      rw [Nat.add_assoc, add_mod_eq hb (by omega)] at h
      split at h <;> omega
    · intro h
      rw [Nat.add_assoc, add_mod_eq ha (by omega)] at h
      split at h <;> omega
  refine ⟨g, h1, h2, fun v hv => ?_, fun hu => ?_, fun v w hv hvw => ?_⟩
  · rw [hd, Finset.sum_eq_zero (hz _ _ v.2 v.2 (.inl rfl)), if_pos hv, zero_add]
  · have e := hu ⟨k, by omega⟩ ⟨0, by omega⟩
    rw [hd, hd, Finset.sum_eq_zero (hz k 0 (by omega) (by omega) (.inr (.inr (by omega)))),
      Finset.sum_eq_zero (hz 0 k (by omega) (by omega) (.inr (.inl (by omega)))), if_pos rfl, if_neg (by simp; omega)] at e
    norm_num at e
  · have hw := w.2
    rw [hd, hd, Finset.sum_eq_zero (hz _ _ v.2 hw (.inr (.inl hvw))), Finset.sum_eq_zero (hz _ _ hw v.2 (.inr (.inr hvw))),
      if_neg (by omega), if_neg (by omega)]
    simp

example : ∃ g, ring 6 2 .combinatorial = .ok g ∧ g.nEdges = 12 ∧ g.W.dense 0 4 = 1 ∧ g.W.dense 0 3 = 0 := by
  obtain ⟨g, h1, -, -, h2⟩ := C68_weights (N := 6) (k := 2) (by norm_num) (by norm_num) (.inl rfl)
  refine ⟨g, h1, (C68_structure (by norm_num) (by norm_num) h1).2.2.2.1, ?_, ?_⟩
  · rw [h2]; exact if_pos ⟨2, by norm_num, by norm_num, .inr rfl⟩
  · rw [h2]
    refine if_neg ?_
    rintro ⟨d, h1, h2, h3⟩
    have : d = 1 ∨ d = 2 := by omega
    rcases this with rfl | rfl <;> revert h3 <;> decide

end PyGSP
