import Verif.Lemmas.Community

/-!
# Lemmas for `Community`: the pairs inside and between the communities
-/

namespace PyGSP.Gen

open Matrix Classical Spec

/-! ## Inside -/

theorem intraAll_eq (a : CommunityArgs) (eps : ℝ) (r : CommunityRng) (coords : List (ℝ × ℝ)) (s : List ℕ) (i first : ℕ) :
    intraAll a eps r coords i first s =
      (List.range s.length).flatMap fun c : ℕ => intraPairs a eps r coords (i + c) (first + (s.take c).sum) (s.getD c 0) := by
  induction s generalizing i first with
  | nil => rfl
  | cons x s ih =>
    rw [intraAll, ih, List.length_cons, List.range_succ_eq_map, List.flatMap_cons, List.flatMap_map]
    congr 1
    refine List.flatMap_congr fun c _ => ?_
    simp only [Nat.succ_eq_add_one, List.take_succ_cons, List.sum_cons, List.getD_cons_succ]
    congr 1
    · ring
    · ring

theorem mem_trilPairs (c : ℕ) (p : ℕ × ℕ) : p ∈ trilPairs c ↔ p.2 < p.1 ∧ p.1 < c := by
  unfold trilPairs
  simp only [List.mem_flatMap, List.mem_range, List.mem_map]
  constructor
  · rintro ⟨r, hr, k, hk, rfl⟩; exact ⟨hk, hr⟩
  · rintro ⟨h1, h2⟩; exact ⟨p.1, h2, p.2, h1, rfl⟩

theorem nodup_trilPairs (c : ℕ) : (trilPairs c).Nodup := by
  unfold trilPairs
  rw [List.nodup_flatMap]
  refine ⟨fun r _ => List.Nodup.map (fun a b h => congrArg Prod.snd h) List.nodup_range, ?_⟩
  refine List.Pairwise.imp_of_mem ?_ (List.pairwise_lt_range (n := c))
  intro a b _ _ hab
  simp only [Function.onFun, List.disjoint_left, List.mem_map]
  rintro p ⟨k, _, rfl⟩ ⟨k', _, h⟩
  have := congrArg Prod.fst h
  simp only at this
  omega

theorem length_trilPairs (c : ℕ) : (trilPairs c).length = c * (c - 1) / 2 := by
  unfold trilPairs
  rw [List.length_flatMap]
  simp only [List.length_map, List.length_range]
  rw [List.map_id', ← Finset.sum_range_id]
  induction c with
  | zero => rfl
  | succ c ih => rw [List.range_succ, List.sum_append, Finset.sum_range_succ, ih]; simp

theorem floor_tri (c : ℕ) : ⌊(c : ℝ) * ((c : ℝ) - 1) / 2⌋₊ = c * (c - 1) / 2 ∧ (c : ℝ) * ((c : ℝ) - 1) / 2 = (c * (c - 1) / 2 : ℕ) := by
  have h : (c : ℝ) * ((c : ℝ) - 1) / 2 = (c * (c - 1) / 2 : ℕ) := by
    have he : 2 ∣ c * (c - 1) := (Nat.even_mul_pred_self c).two_dvd
    rw [Nat.cast_div he (by norm_num)]
    rcases c with _ | c
    · simp
    · push_cast [Nat.add_sub_cancel]; ring
  exact ⟨by rw [h, Nat.floor_natCast], h⟩

/-- what the pairs inside a community are -/
structure IntraOk (first size : ℕ) (P : List (ℕ × ℕ)) : Prop where
  nodup : P.Nodup
  lt : ∀ p ∈ P, p.1 < p.2
  ge : ∀ p ∈ P, first ≤ p.1
  end_lt : ∀ p ∈ P, p.2 < first + size

/-- the length of the selected part of a permutation -/
theorem take_perm {l : List ℕ} {m : ℕ} (h : l.Perm (List.range m)) (nb : ℕ) (hnb : nb ≤ m) :
    (l.take nb).length = nb ∧ (l.take nb).Nodup ∧ ∀ e ∈ l.take nb, e < m := by
  have hl : l.length = m := by rw [h.length_eq, List.length_range]
  refine ⟨by rw [List.length_take, hl]; omega, ((h.nodup_iff).2 List.nodup_range).sublist (List.take_sublist _ _), ?_⟩
  intro e he
  exact List.mem_range.1 (h.subset ((List.take_sublist _ _).subset he))

/-- distinct indices give distinct elements -/
theorem nodup_map_getD {α : Type} {l : List α} (hl : l.Nodup) {idx : List ℕ} (hi : idx.Nodup) (hlt : ∀ e ∈ idx, e < l.length) (d : α) :
    (idx.map fun e => l.getD e d).Nodup := by
  refine List.Nodup.map_on ?_ hi
  intro x hx y hy h
  rw [List.getD_eq_getElem _ _ (hlt x hx), List.getD_eq_getElem _ _ (hlt y hy)] at h
  exact (List.Nodup.getElem_inj_iff hl).1 h

theorem floor_le {d : ℝ} (h1 : d ≤ 1) (m : ℕ) : ⌊d * (m : ℝ)⌋₊ ≤ m := by
  apply Nat.floor_le_of_le
  calc d * (m : ℝ) ≤ 1 * m := mul_le_mul_of_nonneg_right h1 (Nat.cast_nonneg m)
    _ = m := one_mul _

theorem density_pairs {N : ℕ} {a : CommunityArgs} {d : ℝ} (hd : a.commDensity = some d) (h1 : d ≤ 1) (eps : ℝ) {r : CommunityRng}
    (hr : r.Spec N) (coords : List (ℝ × ℝ)) (i first size : ℕ) :
    IntraOk first size (intraPairs a eps r coords i first size) ∧
      (intraPairs a eps r coords i first size).length = ⌊d * ((size : ℝ) * ((size : ℝ) - 1) / 2)⌋₊ := by
  have hE : intraPairs a eps r coords i first size =
      ((r.perm i ⌊(size : ℝ) * ((size : ℝ) - 1) / 2⌋₊).take ⌊d * ((size : ℝ) * ((size : ℝ) - 1) / 2)⌋₊).map fun e =>
        (first + ((trilPairs size).getD e (0, 0)).2, first + ((trilPairs size).getD e (0, 0)).1) := by
    simp only [intraPairs, hd]
  obtain ⟨t1, t2, t3⟩ := take_perm (hr.perm_perm i ⌊(size : ℝ) * ((size : ℝ) - 1) / 2⌋₊) ⌊d * ((size : ℝ) * ((size : ℝ) - 1) / 2)⌋₊ (by
    rw [(floor_tri size).1, (floor_tri size).2]
    exact floor_le h1 _)
  rw [hE]
  rw [(floor_tri size).1, ← length_trilPairs] at t1 t2 t3 ⊢
  have hmem : ∀ p ∈ ((r.perm i (trilPairs size).length).take ⌊d * ((size : ℝ) * ((size : ℝ) - 1) / 2)⌋₊).map fun e =>
        (first + ((trilPairs size).getD e (0, 0)).2, first + ((trilPairs size).getD e (0, 0)).1),
      ∃ q ∈ trilPairs size, p = (first + q.2, first + q.1) := by
    intro p hp
    obtain ⟨e, he, rfl⟩ := List.mem_map.1 hp
    refine ⟨(trilPairs size).getD e (0, 0), ?_, rfl⟩
    rw [List.getD_eq_getElem _ _ (t3 e he)]
    exact List.getElem_mem _
  refine ⟨⟨?_, ?_, ?_, ?_⟩, by rw [List.length_map, t1]⟩
  · have := (nodup_map_getD (nodup_trilPairs size) t2 t3 (0, 0)).map (f := fun q : ℕ × ℕ => (first + q.2, first + q.1)) (by
      intro p q h
      simp only [Prod.mk.injEq] at h
      exact Prod.ext (by omega) (by omega))
    rw [List.map_map] at this
    exact this
  all_goals
    intro p hp
    obtain ⟨q, hq, rfl⟩ := hmem p hp
    rw [mem_trilPairs] at hq
    simp only
    omega

theorem epsilon_pairs {N : ℕ} {a : CommunityArgs} (hd : a.commDensity = none) (hk : a.kNeigh = none) {eps : ℝ} (he : 0 ≤ eps) {r : CommunityRng}
    (hr : r.Spec N) {coords : List (ℝ × ℝ)} (i : ℕ) {first size : ℕ} (hc : first + size ≤ coords.length) :
    IntraOk first size (intraPairs a eps r coords i first size) ∧
      ∀ x y, x < size → y < size → ((first + x, first + y) ∈ intraPairs a eps r coords i first size ↔ x < y ∧
        Real.sqrt (((coords.getD (first + x) (0, 0)).1 - (coords.getD (first + y) (0, 0)).1) ^ 2 +
          ((coords.getD (first + x) (0, 0)).2 - (coords.getD (first + y) (0, 0)).2) ^ 2) ≤ eps) := by
  have hE : intraPairs a eps r coords i first size =
      (r.pairs ((coords.drop first).take size) eps).map fun e => (first + e.1, first + e.2) := by
    simp only [intraPairs, hd, hk]
  have hinj : Function.Injective fun e : ℕ × ℕ => (first + e.1, first + e.2) := by
    intro p q h
    simp only [Prod.mk.injEq] at h
    exact Prod.ext (by omega) (by omega)
  have hlen : ((coords.drop first).take size).length = size := by
    rw [List.length_take, List.length_drop]; omega
  have hm := hr.pairs_mem ((coords.drop first).take size) eps he
  have hget : ∀ x < size, ((coords.drop first).take size).getD x (0, 0) = coords.getD (first + x) (0, 0) := by
    intro x hx
    rw [List.getD_eq_getElem _ _ (by rw [hlen]; exact hx), List.getD_eq_getElem _ _ (by omega), List.getElem_take, List.getElem_drop]
  rw [hE]
  refine ⟨⟨(hr.pairs_nodup _ _ he).map hinj, ?_, ?_, ?_⟩, ?_⟩
  · intro p hp
    obtain ⟨q, hq, rfl⟩ := List.mem_map.1 hp
    have := (hm q).1 hq
    simp only; omega
  · intro p hp
    obtain ⟨q, hq, rfl⟩ := List.mem_map.1 hp
    simp
  · intro p hp
    obtain ⟨q, hq, rfl⟩ := List.mem_map.1 hp
    have := (hm q).1 hq
    simp only; omega
  · intro x y hx hy
    have : (first + x, first + y) = (fun e : ℕ × ℕ => (first + e.1, first + e.2)) (x, y) := rfl
    rw [this, List.mem_map_of_injective hinj, hm, hlen, hget x hx, hget y hy]
    simp only
    constructor
    · rintro ⟨h1, -, h3⟩; exact ⟨h1, h3⟩
    · rintro ⟨h1, h3⟩; exact ⟨h1, hy, h3⟩

/-- pairs `p.1 < p.2` are determined by their unordered pair -/
theorem nodup_key {P : List (ℕ × ℕ)} (h : P.Nodup) (hlt : ∀ p ∈ P, p.1 < p.2) : (P.map key).Nodup := by
  refine List.Nodup.map_on ?_ h
  intro p hp q hq hpq
  have h1 := hlt p hp
  have h2 := hlt q hq
  rcases Sym2.eq_iff.1 hpq with h | h
  · exact Prod.ext h.1 h.2
  · omega

/-! ## Between -/

/-- the number of pairs of vertices in different communities -/
theorem cross_sum (s : List ℕ) : 2 * (∑ i ∈ Finset.range s.length, ∑ j ∈ Finset.range s.length, if i < j then s.getD j 0 * s.getD i 0 else 0) +
    (s.map fun x : ℕ => x ^ 2).sum = s.sum ^ 2 := by
  induction s using List.reverseRecOn with
  | nil => rfl
  | append_singleton s x ih =>
    have e : (∑ i ∈ Finset.range (s ++ [x]).length, ∑ j ∈ Finset.range (s ++ [x]).length,
        if i < j then (s ++ [x]).getD j 0 * (s ++ [x]).getD i 0 else 0) =
        (∑ i ∈ Finset.range s.length, ∑ j ∈ Finset.range s.length, if i < j then s.getD j 0 * s.getD i 0 else 0) + x * s.sum := by
      rw [List.length_append, List.length_singleton, Finset.sum_range_succ]
      have z : (∑ j ∈ Finset.range (s.length + 1), if s.length < j then (s ++ [x]).getD j 0 * (s ++ [x]).getD s.length 0 else 0) = 0 := by
        refine Finset.sum_eq_zero fun j hj => if_neg ?_
        have := Finset.mem_range.1 hj
        omega
      rw [z, add_zero]
      have hs : s.sum = ∑ i ∈ Finset.range s.length, s.getD i 0 := by
        clear ih z
        induction s using List.reverseRecOn with
        | nil => rfl
        | append_singleton s y ih2 =>
          rw [List.sum_append, List.sum_singleton, List.length_append, List.length_singleton, Finset.sum_range_succ, ih2]
          congr 1
          · refine Finset.sum_congr rfl fun i hi => ?_
            rw [List.getD_append _ _ _ _ (Finset.mem_range.1 hi)]
          · rw [List.getD_append_right _ _ _ _ le_rfl]; simp
      rw [hs, Finset.mul_sum, ← Finset.sum_add_distrib]
      refine Finset.sum_congr rfl fun i hi => ?_
      have hi := Finset.mem_range.1 hi
      rw [Finset.sum_range_succ, if_pos hi, List.getD_append_right _ _ _ _ le_rfl, List.getD_append _ _ _ _ hi]
      congr 1
      · refine Finset.sum_congr rfl fun j hj => ?_
        rw [List.getD_append _ _ _ _ (Finset.mem_range.1 hj)]
      · simp
    rw [e, List.map_append, List.sum_append, List.sum_append, List.map_singleton, List.sum_singleton, List.sum_singleton]
    nlinarith [ih]

theorem sum_map_range (m : ℕ) (f : ℕ → ℕ) : ((List.range m).map f).sum = ∑ k ∈ Finset.range m, f k := by
  induction m with
  | zero => rfl
  | succ m ih => rw [List.range_succ, List.map_append, List.sum_append, ih, Finset.sum_range_succ]; simp

theorem allPoints_length (s : List ℕ) : 2 * (allPoints s.length s).length + (s.map fun x : ℕ => x ^ 2).sum = s.sum ^ 2 := by
  rw [← cross_sum s]
  congr 2
  unfold allPoints
  rw [List.length_flatMap]
  simp only [List.length_flatMap, List.length_map, List.length_range]
  rw [sum_map_range]
  rcases Nat.eq_zero_or_pos s.length with h0 | h0
  · rw [h0]; rfl
  obtain ⟨m, hm⟩ : ∃ m, s.length = m + 1 := ⟨s.length - 1, by omega⟩
  rw [hm, Nat.add_sub_cancel, Finset.sum_range_succ (fun i => ∑ j ∈ Finset.range (m + 1), if i < j then s.getD j 0 * s.getD i 0 else 0)]
  have z : (∑ j ∈ Finset.range (m + 1), if m < j then s.getD j 0 * s.getD m 0 else 0) = 0 := by
    refine Finset.sum_eq_zero fun j hj => if_neg ?_
    have := Finset.mem_range.1 hj
    omega
  rw [z, add_zero]
  refine Finset.sum_congr rfl fun i hi => ?_
  have hi := Finset.mem_range.1 hi
  rw [range'_eq_map, List.map_map, sum_map_range]
  rw [← Finset.sum_filter]
  refine Finset.sum_bij (fun k _ => i + 1 + k) ?_ ?_ ?_ ?_
  · intro k hk
    have := Finset.mem_range.1 hk
    simp only [Finset.mem_filter, Finset.mem_range]; omega
  · intro k _ l _ h; omega
  · intro j hj
    simp only [Finset.mem_filter, Finset.mem_range] at hj
    exact ⟨j - (i + 1), by simp; omega, by omega⟩
  · intro k _
    simp

theorem mem_allPoints (s : List ℕ) (p : ℕ × ℕ) : p ∈ allPoints s.length s ↔ ∃ i j r c, i < j ∧ j < s.length ∧ r < s.getD j 0 ∧ c < s.getD i 0 ∧
    p = ((s.take j).sum + r, (s.take i).sum + c) := by
  unfold allPoints
  simp only [List.mem_flatMap, List.mem_range, List.mem_range', List.mem_map]
  constructor
  · rintro ⟨i, hi, j, ⟨k, hk, rfl⟩, r, hr, c, hc, rfl⟩
    exact ⟨i, _, r, c, by omega, by omega, hr, hc, rfl⟩
  · rintro ⟨i, j, r, c, h1, h2, hr, hc, rfl⟩
    exact ⟨i, by omega, j, ⟨j - (i + 1), by omega, by omega⟩, r, hr, c, hc, rfl⟩

theorem nodup_allPoints (s : List ℕ) : (allPoints s.length s).Nodup := by
  have hlab : ∀ c k, c < s.length → k < s.getD c 0 → (blocks s).getD ((s.take c).sum + k) 0 = c := fun c k h1 h2 => blocks_get s h1 h2
  unfold allPoints
  rw [List.nodup_flatMap]
  refine ⟨fun i hi => ?_, ?_⟩
  · rw [List.nodup_flatMap]
    refine ⟨fun j hj => ?_, ?_⟩
    · rw [List.nodup_flatMap]
      refine ⟨fun r _ => List.Nodup.map (fun a b h => by have := congrArg Prod.snd h; simp only at this; omega) List.nodup_range, ?_⟩
      refine List.Pairwise.imp_of_mem ?_ List.pairwise_lt_range
      intro a b _ _ hab
      simp only [Function.onFun, List.disjoint_left, List.mem_map]
      rintro p ⟨k, _, rfl⟩ ⟨k', _, h⟩
      have := congrArg Prod.fst h
      simp only at this
      omega
    · refine List.Pairwise.imp_of_mem ?_ (List.pairwise_lt_range' (s := i + 1) (n := s.length - 1 - i))
      intro a b ha hb hab
      simp only [Function.onFun, List.disjoint_left, List.mem_flatMap, List.mem_map, List.mem_range]
      rintro p ⟨r, hr, k, _, rfl⟩ ⟨r', hr', k', _, h⟩
      have h' := congrArg Prod.fst h
      simp only at h'
      rw [List.mem_range'] at ha hb
      obtain ⟨x, hx, rfl⟩ := ha
      obtain ⟨y, hy, rfl⟩ := hb
      have := List.mem_range.1 hi
      have e1 := hlab _ _ (by omega) hr
      have e2 := hlab _ _ (by omega) hr'
      rw [← h', e2] at e1
      omega
  · refine List.Pairwise.imp_of_mem ?_ List.pairwise_lt_range
    intro a b ha hb hab
    simp only [Function.onFun, List.disjoint_left, List.mem_flatMap, List.mem_map, List.mem_range]
    rintro p ⟨j, _, r, hr, k, hk, rfl⟩ ⟨j', _, r', hr', k', hk', h⟩
    have h' := congrArg Prod.snd h
    simp only at h'
    rw [List.mem_range] at ha hb
    have e1 := hlab _ _ (by omega) hk
    have e2 := hlab _ _ (by omega) hk'
    rw [← h', e2] at e1
    omega

/-- what the pairs between the communities are -/
structure InterOk (N : ℕ) (labels : List ℕ) (P : List (ℕ × ℕ)) : Prop where
  nodup : (P.map key).Nodup
  lt : ∀ p ∈ P, p.1 < N ∧ p.2 < N
  ne : ∀ p ∈ P, labels.getD p.1 0 ≠ labels.getD p.2 0

/-! ### The rejection sampling -/

theorem interSample_ok {N : ℕ} {labels : List ℕ} {nb : ℕ} {point : ℕ → ℕ × ℕ} (hp : ∀ t, (point t).1 < N ∧ (point t).2 < N) (fuel : ℕ) :
    ∀ (t : ℕ) (acc : List (ℕ × ℕ)), acc.Nodup → (∀ q ∈ acc, q.1 < q.2 ∧ q.2 < N ∧ labels.getD q.1 0 ≠ labels.getD q.2 0) → acc.length ≤ nb →
      ∀ P, interSample labels nb point fuel t acc = some P →
        P.Nodup ∧ (∀ q ∈ P, q.1 < q.2 ∧ q.2 < N ∧ labels.getD q.1 0 ≠ labels.getD q.2 0) ∧ P.length = nb := by
  induction fuel with
  | zero =>
    intro t acc h1 h2 h3 P h
    rw [interSample] at h
    by_cases hb : nb ≤ acc.length
    · rw [if_pos hb] at h
      obtain rfl := Option.some.inj h
      exact ⟨h1, h2, by omega⟩
    · rw [if_neg hb] at h; exact absurd h (by simp)
  | succ fuel ih =>
    intro t acc h1 h2 h3 P h
    rw [interSample] at h
    by_cases hb : nb ≤ acc.length
    · rw [if_pos hb] at h
      obtain rfl := Option.some.inj h
      exact ⟨h1, h2, by omega⟩
    · rw [if_neg hb] at h
      simp only at h
      by_cases hl : labels.getD (min (point t).1 (point t).2) 0 ≠ labels.getD (max (point t).1 (point t).2) 0
      · rw [if_pos hl] at h
        by_cases hm : (min (point t).1 (point t).2, max (point t).1 (point t).2) ∈ acc
        · rw [if_pos hm] at h
          exact ih _ _ h1 h2 h3 P h
        · rw [if_neg hm] at h
          refine ih _ _ ?_ ?_ ?_ P h
          · rw [List.nodup_append]
            refine ⟨h1, by simp, ?_⟩
            intro a ha b hb' hab
            rw [List.mem_singleton] at hb'
            rw [hab, hb'] at ha
            exact hm ha
          · intro q hq
            rcases List.mem_append.1 hq with hq | hq
            · exact h2 q hq
            · rw [List.mem_singleton] at hq
              subst hq
              refine ⟨?_, ?_, hl⟩
              · refine lt_of_le_of_ne min_le_max ?_
                intro he
                simp only at he
                rw [he] at hl
                exact hl rfl
              · exact max_lt (hp t).1 (hp t).2
          · simp; omega
      · rw [if_neg hl] at h
        exact ih _ _ h1 h2 h3 P h

/-- when the sampling has not finished, it has seen every pair drawn, and has too few -/
theorem interSample_none {labels : List ℕ} {nb : ℕ} {point : ℕ → ℕ × ℕ} (fuel : ℕ) :
    ∀ (t : ℕ) (acc : List (ℕ × ℕ)), interSample labels nb point fuel t acc = none →
      ∃ acc' : List (ℕ × ℕ), acc'.length < nb ∧ (∀ q ∈ acc, q ∈ acc') ∧ ∀ t', t ≤ t' → t' < t + fuel →
        labels.getD (min (point t').1 (point t').2) 0 ≠ labels.getD (max (point t').1 (point t').2) 0 →
          (min (point t').1 (point t').2, max (point t').1 (point t').2) ∈ acc' := by
  induction fuel with
  | zero =>
    intro t acc h
    rw [interSample] at h
    by_cases hb : nb ≤ acc.length
    · rw [if_pos hb] at h; exact absurd h (by simp)
    · exact ⟨acc, by omega, fun _ h => h, fun t' h1 h2 => by omega⟩
  | succ fuel ih =>
    intro t acc h
    rw [interSample] at h
    by_cases hb : nb ≤ acc.length
    · rw [if_pos hb] at h; exact absurd h (by simp)
    · rw [if_neg hb] at h
      simp only at h
      by_cases hl : labels.getD (min (point t).1 (point t).2) 0 ≠ labels.getD (max (point t).1 (point t).2) 0
      · rw [if_pos hl] at h
        obtain ⟨acc', a1, a2, a3⟩ := ih _ _ h
        refine ⟨acc', a1, ?_, ?_⟩
        · intro q hq
          refine a2 q ?_
          split
          · exact hq
          · exact List.mem_append_left _ hq
        · intro t' h1 h2 h3
          rcases Nat.eq_or_lt_of_le h1 with rfl | h4
          · refine a2 _ ?_
            split
            · assumption
            · simp
          · exact a3 t' h4 (by omega) h3
      · rw [if_neg hl] at h
        obtain ⟨acc', a1, a2, a3⟩ := ih _ _ h
        refine ⟨acc', a1, a2, ?_⟩
        intro t' h1 h2 h3
        rcases Nat.eq_or_lt_of_le h1 with rfl | h4
        · exact absurd h3 hl
        · exact a3 t' h4 (by omega) h3

end PyGSP.Gen
