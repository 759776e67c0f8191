import Verif.Props.Torus

/-!
# C71: Comet and Star; C72: FullConnected
-/

namespace PyGSP

open Matrix Spec Gen

namespace Gen

theorem map_const_range (k : ℕ) : List.replicate k 0 = (List.range k).map fun _ : ℕ => 0 := by
  rw [List.map_const']; simp

private theorem comet_bound {N k : ℕ} (h : k + 1 ≤ N) :
    ∀ e ∈ ones (List.replicate k 0 ++ List.range' 1 k ++ List.range' k (N - 1 - k) ++ List.range' (k + 1) (N - 1 - k))
      (List.range' 1 k ++ List.replicate k 0 ++ List.range' (k + 1) (N - 1 - k) ++ List.range' k (N - 1 - k)), e.1 < N ∧ e.2.1 < N := by
  intro e he
  have := mem_ones he
  simp only [List.mem_append, List.mem_range'_1, List.mem_replicate] at this
  omega

end Gen

/-- **The weights of `Comet(N, k)`**: one between the centre 0 and the vertices `1, ..., k`, and between consecutive vertices of the
tail `k, k+1, ..., N-1`; zero elsewhere. -/
theorem C71_weights {N k : ℕ} (h : k + 1 ≤ N) {lt : LapType} (hlt : lt = .combinatorial ∨ lt = .normalized) :
    ∃ g, comet N k lt = .ok g ∧ g.Built ∧ g.lapType = lt ∧ ∀ i j, g.W.dense i j =
      if (i.1 = 0 ∧ 1 ≤ j.1 ∧ j.1 ≤ k) ∨ (j.1 = 0 ∧ 1 ≤ i.1 ∧ i.1 ≤ k) ∨ (k ≤ i.1 ∧ j.1 = i.1 + 1) ∨ (k ≤ j.1 ∧ i.1 = j.1 + 1) then 1
      else 0 := by
  unfold comet
  rw [if_neg (by omega)]
  obtain ⟨g, h1, h2, h3, h4⟩ := ofEdges_ok (comet_bound h) hlt
  refine ⟨g, h1, h2, h4, fun i j => ?_⟩
  have hi := i.2
  have hj := j.2
  rw [h3, ones_append (by simp), ones_append (by simp), ones_append (by simp), weightAt_append, weightAt_append, weightAt_append,
    map_const_range, range'_eq_map, range'_eq_map, range'_eq_map, weightAt_ones, weightAt_ones, weightAt_ones, weightAt_ones,
    sum_unique _ _ (by intro p _ q _ h h'; omega), sum_unique _ _ (by intro p _ q _ h h'; omega),
    sum_unique _ _ (by intro p _ q _ h h'; omega), sum_unique _ _ (by intro p _ q _ h h'; omega)]
  have a1 : (∃ p < k, 0 = i.1 ∧ 1 + p = j.1) ↔ (i.1 = 0 ∧ 1 ≤ j.1 ∧ j.1 ≤ k) :=
    ⟨fun ⟨p, _, h⟩ => by omega, fun h => ⟨j.1 - 1, by omega, by omega, by omega⟩⟩
  have a2 : (∃ p < k, 1 + p = i.1 ∧ 0 = j.1) ↔ (j.1 = 0 ∧ 1 ≤ i.1 ∧ i.1 ≤ k) :=
    ⟨fun ⟨p, _, h⟩ => by omega, fun h => ⟨i.1 - 1, by omega, by omega, by omega⟩⟩
  have a3 : (∃ p < N - 1 - k, k + p = i.1 ∧ k + 1 + p = j.1) ↔ (k ≤ i.1 ∧ j.1 = i.1 + 1) :=
    ⟨fun ⟨p, _, h⟩ => by omega, fun h => ⟨i.1 - k, by omega, by omega, by omega⟩⟩
  have a4 : (∃ p < N - 1 - k, k + 1 + p = i.1 ∧ k + p = j.1) ↔ (k ≤ j.1 ∧ i.1 = j.1 + 1) :=
    ⟨fun ⟨p, _, h⟩ => by omega, fun h => ⟨j.1 - k, by omega, by omega, by omega⟩⟩
  simp only [a1, a2, a3, a4]
  by_cases b1 : i.1 = 0 ∧ 1 ≤ j.1 ∧ j.1 ≤ k
  · rw [if_pos b1, if_neg (by omega), if_neg (by omega), if_neg (by omega), if_pos (.inl b1)]; norm_num
  · rw [if_neg b1]
    by_cases b2 : j.1 = 0 ∧ 1 ≤ i.1 ∧ i.1 ≤ k
    · rw [if_pos b2, if_neg (by omega), if_neg (by omega), if_pos (.inr (.inl b2))]; norm_num
    · rw [if_neg b2]
      by_cases b3 : k ≤ i.1 ∧ j.1 = i.1 + 1
      · rw [if_pos b3, if_neg (by omega), if_pos (.inr (.inr (.inl b3)))]; norm_num
      · rw [if_neg b3]
        by_cases b4 : k ≤ j.1 ∧ i.1 = j.1 + 1
        · rw [if_pos b4, if_pos (.inr (.inr (.inr b4)))]; norm_num
        · rw [if_neg b4, if_neg (by omega)]; norm_num

namespace Gen

theorem comet_lapType {N k : ℕ} {lt : LapType} {g : Graph N ℝ} (hg : comet N k lt = .ok g) :
    k + 1 ≤ N ∧ (lt = .combinatorial ∨ lt = .normalized) := by
  by_cases h : k + 1 ≤ N
  · refine ⟨h, ?_⟩
    by_contra hc
    cases lt with
    | combinatorial => simp at hc
    | normalized => simp at hc
    | other name =>
      unfold comet at hg
      rw [if_neg (by omega), ofEdges_unknown (comet_bound h)] at hg
      cases hg
  · unfold comet at hg
    rw [if_pos (by omega)] at hg
    cases hg

end Gen

/-- **`Comet(N, k)` is a tree whose centre has `k` neighbours**: undirected, connected, no self-loops, `N - 1` edges, and the vertex 0
has degree `k` (when `k ≥ 1`). -/
theorem C71_structure {N k : ℕ} {lt : LapType} {g : Graph N ℝ} (hg : comet N k lt = .ok g) :
    Undirected g.W.dense ∧ StronglyConnected g.W.dense ∧ (∀ i, g.W.dense i i = 0) ∧ g.nEdges = N - 1 ∧
      (1 ≤ k → ∀ c : Fin N, c.1 = 0 → (Finset.univ.filter fun j => g.W.dense c j ≠ 0).card = k) := by
  obtain ⟨h, hlt⟩ := comet_lapType hg
  obtain ⟨g', h1, hb, -, hd⟩ := C71_weights h hlt
  rw [hg] at h1
  obtain rfl := Except.ok.inj h1
  have hu : Undirected g.W.dense := fun i j => by
    rw [hd, hd]
    exact if_congr (by tauto) rfl rfl
  have hl : ∀ i, g.W.dense i i = 0 := fun i => by
    rw [hd, if_neg (by omega)]
  have hne : ∀ i j : Fin N, g.W.dense i j ≠ 0 ↔
      ((i.1 = 0 ∧ 1 ≤ j.1 ∧ j.1 ≤ k) ∨ (j.1 = 0 ∧ 1 ≤ i.1 ∧ i.1 ≤ k) ∨ (k ≤ i.1 ∧ j.1 = i.1 + 1) ∨ (k ≤ j.1 ∧ i.1 = j.1 + 1)) := by
    intro i j
    rw [hd, ne_eq, ite_eq_right_iff, Classical.not_imp]
    exact ⟨fun h => h.1, fun h => ⟨h, one_ne_zero⟩⟩
  refine ⟨hu, ?_, hl, ?_, ?_⟩
  · refine connected_from_zero hu (by omega) fun v => ?_
    have hk : Reach g.W.dense ⟨0, by omega⟩ ⟨k, by omega⟩ := by
      rcases Nat.eq_zero_or_pos k with e | e
      · subst e; exact .refl
      · exact .single ((hne _ _).2 (.inl ⟨rfl, e, le_refl k⟩))
    rcases Nat.lt_or_ge v.1 k with hv | hv
    · rcases Nat.eq_zero_or_pos v.1 with e | e
      · have : v = ⟨0, by omega⟩ := Fin.ext e
        rw [this]; exact .refl
      · exact .single ((hne _ _).2 (.inl ⟨rfl, e, hv.le⟩))
    · refine hk.trans (reach_up k v.1 hv v.2 fun i hi h1 h2 => (hne _ _).2 (.inr (.inr (.inl ⟨h1, rfl⟩))))
  · rw [C02_n_edges_undirected g hb hu, edges_card hu hl, ← Finset.card_range (N - 1)]
    refine Finset.card_bij (fun p _ => p.2.1 - 1) ?_ ?_ ?_
    · rintro ⟨a, b⟩ hp
      obtain ⟨hp, hlt1⟩ := Finset.mem_filter.1 hp
      have := b.2
      rw [Finset.mem_range]
      simp only [Fin.lt_def] at hlt1
      show b.1 - 1 < N - 1
      omega
    · rintro ⟨a, b⟩ hp ⟨c, d⟩ hq heq
      obtain ⟨hp, hlt1⟩ := Finset.mem_filter.1 hp
      obtain ⟨hq, hlt2⟩ := Finset.mem_filter.1 hq
      have hab := (hne a b).1 (Finset.mem_filter.1 hp).2
      have hcd := (hne c d).1 (Finset.mem_filter.1 hq).2
      simp only [Fin.lt_def] at *
      have e1 : b.1 = d.1 := by omega
      have e2 : a.1 = c.1 := by omega
      exact Prod.ext (Fin.ext e2) (Fin.ext e1)
    · intro m hm
      rw [Finset.mem_range] at hm
      by_cases hmk : m + 1 ≤ k
      · refine ⟨(⟨0, by omega⟩, ⟨m + 1, by omega⟩), Finset.mem_filter.2 ⟨Finset.mem_filter.2 ⟨Finset.mem_univ _, ?_⟩, ?_⟩, by simp⟩
        · exact (hne _ _).2 (.inl ⟨rfl, by simp, hmk⟩)
        · simp [Fin.lt_def]
      · refine ⟨(⟨m, by omega⟩, ⟨m + 1, by omega⟩), Finset.mem_filter.2 ⟨Finset.mem_filter.2 ⟨Finset.mem_univ _, ?_⟩, ?_⟩, by simp⟩
        · exact (hne _ _).2 (.inr (.inr (.inl ⟨by simp only; omega, rfl⟩)))
        · simp [Fin.lt_def]
  · intro hk c hc
    rw [← Finset.card_range k]
    refine Finset.card_bij (fun j _ => j.1 - 1) ?_ ?_ ?_
    · intro j hj
      have := (hne c j).1 (Finset.mem_filter.1 hj).2
      rw [Finset.mem_range]
      omega
    · intro j hj j' hj' heq
      have h1 := (hne c j).1 (Finset.mem_filter.1 hj).2
      have h2 := (hne c j').1 (Finset.mem_filter.1 hj').2
      exact Fin.ext (by omega)
    · intro m hm
      rw [Finset.mem_range] at hm
      refine ⟨⟨m + 1, by omega⟩, Finset.mem_filter.2 ⟨Finset.mem_univ _, ?_⟩, by simp⟩
      exact (hne _ _).2 (.inl ⟨hc, by simp, by simp only; omega⟩)

/-- `Comet` raises ValueError exactly when `k > N - 1` (or when the Laplacian type is unknown). -/
theorem C71_errors (N k : ℕ) (lt : LapType) : comet N k lt = .error .valueError ↔ N < k + 1 ∨ ∃ name, lt = .other name := by
  constructor
  · intro h
    by_contra hc
    push Not at hc
    have hlt : lt = .combinatorial ∨ lt = .normalized := by
      cases lt with
      | combinatorial => simp
      | normalized => simp
      | other name => exact absurd rfl (hc.2 name)
    obtain ⟨g, hg, -⟩ := C71_weights hc.1 hlt
    rw [hg] at h
    cases h
  · intro h
    by_cases hk : N < k + 1
    · unfold comet
      rw [if_pos hk]
    · obtain ⟨name, rfl⟩ := h.resolve_left hk
      unfold comet
      rw [if_neg hk, ofEdges_unknown (comet_bound (by omega))]

/-- **`Star(N)`**: the weight is one when exactly one of the two vertices is the centre 0; `N - 1` edges. -/
theorem C71_star {N : ℕ} (hN : 0 < N) {lt : LapType} (hlt : lt = .combinatorial ∨ lt = .normalized) :
    ∃ g, Gen.star N lt = .ok g ∧ g.Built ∧ g.nEdges = N - 1 ∧ ∀ i j, g.W.dense i j = if (i.1 = 0 ∧ j.1 ≠ 0) ∨ (j.1 = 0 ∧ i.1 ≠ 0) then 1 else 0 := by
  obtain ⟨g, h1, h2, -, h3⟩ := C71_weights (N := N) (k := N - 1) (by omega) hlt
  refine ⟨g, by unfold Gen.star; rw [if_neg (by omega), h1], h2, (C71_structure h1).2.2.2.1, fun i j => ?_⟩
  have := i.2
  have := j.2
  rw [h3]
  exact if_congr (by omega) rfl rfl

/-- The coordinates of `Comet` (`k ≥ 1`): the centre is at the origin, its neighbours are on the unit circle at pairwise different
points, and the tail goes on to the right, one unit at a time, starting from the last neighbour at `(1, 0)`. -/
theorem C71_coords {k : ℕ} (hk : 1 ≤ k) :
    cometCoords k 0 = (0, 0) ∧ (∀ v, 1 ≤ v → v ≤ k → (cometCoords k v).1 ^ 2 + (cometCoords k v).2 ^ 2 = 1) ∧
      (∀ v, k ≤ v → cometCoords k v = ((v - k + 1 : ℝ), 0)) ∧ Function.Injective (cometCoords k) := by
  have hkr : (0 : ℝ) < k := by exact_mod_cast hk
  have hpi := Real.pi_pos
  have hcirc : ∀ v, 1 ≤ v → v ≤ k → cometCoords k v = (Real.cos (v * 2 * Real.pi / k), Real.sin (v * 2 * Real.pi / k)) := by
    intro v h1 h2
    unfold cometCoords
    rw [if_neg (by omega), if_pos h2]
  have htail : ∀ v, k ≤ v → cometCoords k v = ((v - k + 1 : ℝ), 0) := by
    intro v hv
    rcases Nat.eq_or_lt_of_le hv with e | e
    · subst e
      rw [hcirc k hk le_rfl, show (k : ℝ) * 2 * Real.pi / k = 2 * Real.pi by field_simp, Real.cos_two_pi, Real.sin_two_pi]
      simp
    · unfold cometCoords
      rw [if_neg (by omega), if_neg (by omega)]
  have hnorm : ∀ v, 1 ≤ v → v ≤ k → (cometCoords k v).1 ^ 2 + (cometCoords k v).2 ^ 2 = 1 := by
    intro v h1 h2
    rw [hcirc v h1 h2]
    exact Real.cos_sq_add_sin_sq _
  have h0 : cometCoords k 0 = (0, 0) := by unfold cometCoords; rw [if_pos rfl]
  refine ⟨h0, hnorm, htail, ?_⟩
  -- the squared norm tells the three parts apart
  have hbig : ∀ v, k < v → 1 < (cometCoords k v).1 ^ 2 + (cometCoords k v).2 ^ 2 := by
    intro v hv
    rw [htail v hv.le]
    have : (k : ℝ) + 1 ≤ v := by exact_mod_cast hv
    simp only
    nlinarith
  have key : ∀ v w : ℕ, v < w → cometCoords k v ≠ cometCoords k w := by
    intro v w hvw e
    rcases Nat.eq_zero_or_pos v with rfl | hv
    · rw [h0] at e
      rcases Nat.lt_or_ge k w with hw | hw
      · have := hbig w hw; rw [← e] at this; norm_num at this
      · have := hnorm w (by omega) hw; rw [← e] at this; norm_num at this
    · rcases Nat.lt_or_ge k w with hw | hw
      · rcases Nat.lt_or_ge k v with hv' | hv'
        · rw [htail v hv'.le, htail w hw.le] at e
          have := (Prod.ext_iff.1 e).1
          simp only [add_left_inj, sub_left_inj, Nat.cast_inj] at this
          omega
        · have h1 := hbig w hw; have h2 := hnorm v hv hv'; rw [e] at h2; linarith
      · rw [hcirc v hv (by omega), hcirc w (by omega) hw] at e
        obtain ⟨e1, e2⟩ := Prod.ext_iff.1 e
        simp only at e1 e2
        obtain ⟨m, hm⟩ := Real.Angle.angle_eq_iff_two_pi_dvd_sub.1 (Real.Angle.cos_sin_inj e1 e2)
        have hvw' : (v : ℝ) < w := by exact_mod_cast hvw
        have hwk : (w : ℝ) ≤ k := by exact_mod_cast hw
        have hv0 : (1 : ℝ) ≤ v := by exact_mod_cast hv
        have hm' : (v : ℝ) - w = m * k := by
          field_simp at hm
          nlinarith [hm]
        have h1 : (m : ℝ) < 0 := by
          by_contra hc
          push Not at hc
          nlinarith
        have h2 : (-1 : ℝ) < m := by
          by_contra hc
          push Not at hc
          nlinarith
        have h1' : m < 0 := by exact_mod_cast h1
        have h2' : -1 < m := by exact_mod_cast h2
        omega
  intro v w e
  rcases lt_trichotomy v w with h | h | h
  · exact absurd e (key v w h)
  · exact h
  · exact absurd e.symm (key w v h)

example : ∃ g, comet 10 4 .combinatorial = .ok g ∧ g.nEdges = 9 ∧ g.W.dense 0 4 = 1 ∧ g.W.dense 4 5 = 1 ∧ g.W.dense 0 5 = 0 := by
  obtain ⟨g, h1, -, -, h2⟩ := C71_weights (N := 10) (k := 4) (by norm_num) (.inl rfl)
  refine ⟨g, h1, (C71_structure h1).2.2.2.1, ?_, ?_, ?_⟩ <;> rw [h2] <;> simp

/-! ## C72: FullConnected -/

/-- **`FullConnected(N)`**: weight one between any two different vertices, no self-loops; undirected, connected, `N (N - 1) / 2`
edges. -/
theorem C72_full (N : ℕ) {lt : LapType} (hlt : lt = .combinatorial ∨ lt = .normalized) :
    ∃ g, fullConnected N lt = .ok g ∧ g.Built ∧ g.lapType = lt ∧ (∀ i j, g.W.dense i j = if i = j then 0 else 1) ∧
      Undirected g.W.dense ∧ StronglyConnected g.W.dense ∧ g.nEdges = N * (N - 1) / 2 := by
  obtain ⟨g, g1, g2, g3, g4⟩ :=
    Graph.ofCsr_canonical (Sp.ofDense ((Matrix.of fun _ _ => 1) - (1 : Matrix (Fin N) (Fin N) ℝ))) (Sp.canonical_ofDense _) hlt
  have hd : ∀ i j, g.W.dense i j = if i = j then 0 else 1 := by
    intro i j
    rw [g3, Sp.dense_ofDense]
    by_cases h : i = j
    · subst h; simp
    · simp [h]
  have hu : Undirected g.W.dense := fun i j => by
    rw [hd, hd]
    exact if_congr eq_comm rfl rfl
  have hl : ∀ i, g.W.dense i i = 0 := fun i => by rw [hd, if_pos rfl]
  refine ⟨g, g1, g2, g4, hd, hu, fun i j => ?_, ?_⟩
  · by_cases h : i = j
    · subst h; exact .refl
    · refine .single ?_
      unfold Arc
      rw [hd, if_neg h]
      norm_num
  · rw [C02_n_edges_undirected g g2 hu]
    have := two_edges_card hu hl
    have hc : ∀ i, (Finset.univ.filter fun j => g.W.dense i j ≠ 0).card = N - 1 := by
      intro i
      have : (Finset.univ.filter fun j => g.W.dense i j ≠ 0) = Finset.univ.erase i := by
        ext j
        simp only [Finset.mem_filter, Finset.mem_univ, true_and, Finset.mem_erase, and_true, hd]
        by_cases h : i = j
        · subst h; simp
        · simp [h, Ne.symm h]
      rw [this, Finset.card_erase_of_mem (Finset.mem_univ _), Finset.card_univ, Fintype.card_fin]
    rw [Finset.sum_congr rfl fun i _ => hc i, Finset.sum_const, Finset.card_univ, Fintype.card_fin, smul_eq_mul] at this
    omega

example : ∃ g, fullConnected 5 .normalized = .ok g ∧ g.nEdges = 10 := by
  obtain ⟨g, h1, -, -, -, -, -, h2⟩ := C72_full 5 (.inr rfl)
  exact ⟨g, h1, h2⟩

end PyGSP
