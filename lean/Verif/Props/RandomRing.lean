import Verif.Model.RandomRing
import Verif.Props.Generators
import Verif.Props.Laplacian
import Mathlib.Data.List.GetD
import Mathlib.Analysis.Real.Pi.Bounds

/-!
# C80: `RandomRing`
-/

namespace PyGSP.Gen

open Matrix Spec Classical

/-- The angle from `a` to `b`, anticlockwise. -/
noncomputable def arcAngle (a b : ℝ) : ℝ := if a < b then b - a else 2 * Real.pi + b - a

theorem sum_data {n m : ℕ} {K : Type*} [AddCommMonoid K] (A : Sp n m K) : A.data.sum = ∑ i, ∑ j, A.dense i j := by
  obtain ⟨l⟩ := A
  induction l with
  | nil => simp [Sp.data, Sp.dense]
  | cons e l ih =>
    have h : (Sp.data ⟨e :: l⟩ : List K).sum = e.2.2 + (Sp.data (⟨l⟩ : Sp n m K)).sum := by simp [Sp.data]
    rw [h, ih]
    simp only [Sp.dense_cons, Finset.sum_add_distrib]
    congr 1
    rw [Finset.sum_eq_single e.1, Finset.sum_eq_single e.2.1]
    · simp
    · intro b _ hb
      exact if_neg fun h => hb h.2.symm
    · simp
    · intro b _ hb
      exact Finset.sum_eq_zero fun j _ => if_neg fun h => hb h.1.symm
    · simp

theorem canonical_mapData {n m : ℕ} {K : Type*} (f : K → K) {A : Sp n m K} (h : A.Canonical) : (mapData f A).Canonical := by
  unfold Sp.Canonical Sp.keys mapData at *
  rw [List.map_map]
  exact h

theorem dense_mapData {n m : ℕ} {K : Type*} [AddCommMonoid K] [DecidableEq K] (f : K → K) {M : Matrix (Fin n) (Fin m) K} (i j) :
    (mapData f (Sp.ofDense M)).dense i j = if M i j ≠ 0 then f (M i j) else 0 := by
  split
  · rename_i h
    refine Sp.dense_of_mem (canonical_mapData f (Sp.canonical_ofDense M)) ?_
    exact List.mem_map.2 ⟨(i, j, M i j), (Sp.mem_ofDense M i j _).2 ⟨h, rfl⟩, rfl⟩
  · rename_i h
    by_contra hd
    obtain ⟨v, hv⟩ := Sp.exists_mem_of_dense_ne hd
    obtain ⟨⟨i', j', w⟩, hw, he⟩ := List.mem_map.1 hv
    simp only [Prod.mk.injEq] at he
    obtain ⟨rfl, rfl, -⟩ := he
    have := (Sp.mem_ofDense M _ _ _).1 hw
    exact h (this.2 ▸ this.1)

/-- gap after the vertex `i` -/
noncomputable def gapAt (N : ℕ) (s : List ℝ) (i : ℕ) : ℝ :=
  if i + 1 < N then s.getD (i + 1) 0 - s.getD i 0 else 2 * Real.pi + s.getD 0 0 - s.getD (N - 1) 0

theorem ringGaps_eq {N : ℕ} (hN : 3 ≤ N) (s : List ℝ) : ringGaps N s =
    (List.range (N - 1)).map (fun i : ℕ => (i, i + 1, gapAt N s i)) ++ [(0, N - 1, gapAt N s (N - 1))] := by
  unfold ringGaps
  simp only
  rw [List.zip_append (by simp), List.zip_append (by simp), range'_eq_map]
  congr 1
  · have : List.range (N - 1) = (List.range (N - 1)).map fun i => i := by simp
    rw [List.zip_map']
    conv_lhs => arg 1; rw [this]
    rw [List.zip_map']
    refine List.map_congr_left fun i hi => ?_
    have := List.mem_range.1 hi
    rw [gapAt, if_pos (by omega), Nat.add_comm 1 i]
  · simp only [List.zip_cons_cons, List.zip_nil_right, gapAt]
    rw [if_neg (by omega)]

/-- the symmetric matrix with `f i` between the vertex `i` and the next one -/
noncomputable def around (N : ℕ) (f : ℕ → ℝ) (i j : ℕ) : ℝ := (if (i + 1) % N = j then f i else 0) + if (j + 1) % N = i then f j else 0

theorem around_excl {N i j : ℕ} (hN : 3 ≤ N) (hi : i < N) (hj : j < N) : ¬ ((i + 1) % N = j ∧ (j + 1) % N = i) := by
  rintro ⟨h1, h2⟩
  rw [add_mod_eq hi (by omega)] at h1
  rw [add_mod_eq hj (by omega)] at h2
  split at h1 <;> split at h2 <;> omega

theorem around_map {N i j : ℕ} (hN : 3 ≤ N) (hi : i < N) (hj : j < N) (f : ℕ → ℝ) (φ : ℝ → ℝ) (h0 : φ 0 = 0) :
    φ (around N f i j) = around N (fun k => φ (f k)) i j := by
  have := around_excl hN hi hj
  unfold around
  by_cases h1 : (i + 1) % N = j
  · have h2 : ¬ (j + 1) % N = i := fun h2 => this ⟨h1, h2⟩
    rw [if_pos h1, if_neg h2, if_pos h1, if_neg h2, add_zero, add_zero]
  · by_cases h2 : (j + 1) % N = i
    · rw [if_neg h1, if_pos h2, if_neg h1, if_pos h2, zero_add, zero_add]
    · rw [if_neg h1, if_neg h2, if_neg h1, if_neg h2, add_zero, h0]

theorem sum_around {N : ℕ} (hN : 3 ≤ N) (f : ℕ → ℝ) : ∑ i : Fin N, ∑ j : Fin N, around N f i.1 j.1 = 2 * ∑ i : Fin N, f i.1 := by
  have h1 : ∀ i : Fin N, ∑ j : Fin N, (if (i.1 + 1) % N = j.1 then f i.1 else 0) = f i.1 := by
    intro i
    rw [Finset.sum_eq_single ⟨(i.1 + 1) % N, Nat.mod_lt _ (by omega)⟩]
    · simp
    · intro b _ hb
      exact if_neg fun h => hb (Fin.ext h.symm)
    · simp
  unfold around
  simp only [Finset.sum_add_distrib]
  rw [Finset.sum_comm (f := fun (i j : Fin N) => if (j.1 + 1) % N = i.1 then f j.1 else 0)]
  simp only [h1]
  ring

theorem weight_gaps {N : ℕ} (hN : 3 ≤ N) (s : List ℝ) {i j : ℕ} (hi : i < N) (hj : j < N) :
    (if i ≤ j then weightAt (ringGaps N s) i j else weightAt (ringGaps N s) j i) = around N (gapAt N s) i j := by
  have key : ∀ {i j : ℕ}, i < N → j < N → weightAt (ringGaps N s) i j =
      (if i + 1 = j then gapAt N s i else 0) + if i = 0 ∧ j = N - 1 then gapAt N s (N - 1) else 0 := by
    intro i j hi hj
    rw [ringGaps_eq hN, weightAt_append]
    congr 1
    · unfold weightAt
      rw [List.map_map, sum_range_map]
      by_cases h : i + 1 = j
      · rw [if_pos h, Finset.sum_eq_single i]
        · simp [h]
        · intro b _ hb
          exact if_neg fun h => hb h.1
        · intro h'
          exact absurd (Finset.mem_range.2 (by omega)) h'
      · rw [if_neg h]
        refine Finset.sum_eq_zero fun b _ => if_neg ?_
        simp only
        omega
    · simp only [weightAt, List.map_cons, List.map_nil, List.sum_cons, List.sum_nil, add_zero]
      refine if_congr (by omega) rfl rfl
  unfold around
  rw [add_mod_eq hi (by omega), add_mod_eq hj (by omega), key hi hj, key hj hi]
  by_cases hij : i ≤ j
  · rw [if_pos hij]
    congr 1
    · refine if_congr ?_ rfl rfl
      split <;> omega
    · by_cases h : i = 0 ∧ j = N - 1
      · obtain ⟨rfl, rfl⟩ := h
        rw [if_pos ⟨rfl, rfl⟩, if_pos (by rw [if_neg (by omega)]; omega)]
      · rw [if_neg h, if_neg]
        split <;> omega
  · rw [if_neg hij, add_comm]
    congr 1
    · by_cases h : j = 0 ∧ i = N - 1
      · obtain ⟨rfl, rfl⟩ := h
        rw [if_pos ⟨rfl, rfl⟩, if_pos (by rw [if_neg (by omega)]; omega)]
      · rw [if_neg h, if_neg]
        split <;> omega
    · refine if_congr ?_ rfl rfl
      split <;> omega

/-- the angles are sorted and within one turn -/
structure SortedTurn (N : ℕ) (s : List ℝ) : Prop where
  mono : ∀ i, i + 1 < N → s.getD i 0 ≤ s.getD (i + 1) 0
  turn : s.getD (N - 1) 0 < 2 * Real.pi + s.getD 0 0

theorem SortedTurn.gap_nonneg {N : ℕ} {s : List ℝ} (h : SortedTurn N s) (i : ℕ) : 0 ≤ gapAt N s i := by
  unfold gapAt
  split
  · exact sub_nonneg.2 (h.mono i ‹_›)
  · linarith [h.turn]

theorem sum_gaps {N : ℕ} (hN : 3 ≤ N) (s : List ℝ) : ∑ i : Fin N, gapAt N s i.1 = 2 * Real.pi := by
  obtain ⟨n, rfl⟩ : ∃ n, N = n + 1 := ⟨N - 1, by omega⟩
  rw [Fin.sum_univ_eq_sum_range (fun i => gapAt (n + 1) s i), Finset.sum_range_succ,
    Finset.sum_congr rfl (g := fun i => s.getD (i + 1) 0 - s.getD i 0), Finset.sum_range_sub fun i => s.getD i 0]
  · unfold gapAt
    rw [if_neg (by omega), Nat.add_sub_cancel]
    ring
  · intro i hi
    have := Finset.mem_range.1 hi
    rw [gapAt, if_pos (by omega)]

/-- what the constructor computes from sorted angles -/
theorem ringOfSorted_eq {N : ℕ} (hN : 3 ≤ N) {s : List ℝ} (h : SortedTurn N s) {lt : LapType}
    (hlt : lt = .combinatorial ∨ lt = .normalized) :
    (2 * Real.pi / (Finset.univ.filter fun i : Fin N => gapAt N s i.1 ≠ 0).card - 2 * Real.pi / N < 1 / 10 ^ 10 →
      ∃ g : Graph N ℝ, ringOfSorted N s lt = .ok ⟨N, s, g, s.map fun a => (Real.cos a, Real.sin a)⟩ ∧ g.Built ∧ g.lapType = lt ∧
        ∀ i j, g.W.dense i j = around N (fun k => if gapAt N s k ≠ 0 then 2 * Real.pi / N / gapAt N s k else 0) i.1 j.1) ∧
    (¬ 2 * Real.pi / (Finset.univ.filter fun i : Fin N => gapAt N s i.1 ≠ 0).card - 2 * Real.pi / N < 1 / 10 ^ 10 →
      ringOfSorted N s lt = .error .assertionError) := by
  have hb : ∀ e ∈ ringGaps N s, e.1 < N ∧ e.2.1 < N := by
    intro e he
    rw [ringGaps_eq hN] at he
    simp only [List.mem_append, List.mem_map, List.mem_range, List.mem_singleton] at he
    rcases he with ⟨i, hi, rfl⟩ | rfl <;> constructor <;> simp only <;> omega
  obtain ⟨W, hW, -, hd⟩ := coo_ok hb
  have hnn : NonnegW W.dense := by
    intro i j
    rw [hd]
    unfold weightAt
    refine List.sum_nonneg ?_
    intro x hx
    obtain ⟨e, he, rfl⟩ := List.mem_map.1 hx
    split
    · rw [ringGaps_eq hN] at he
      simp only [List.mem_append, List.mem_map, List.mem_range, List.mem_singleton] at he
      rcases he with ⟨i, hi, rfl⟩ | rfl <;> exact h.gap_nonneg _
    · exact le_rfl
  obtain ⟨S, hS, hSd⟩ := (C53_values true W.dense).2.2.2.2 hnn
  have hSa : ∀ i j : Fin N, S i j = around N (gapAt N s) i.1 j.1 := by
    intro i j
    rw [hSd, hd, hd, ← weight_gaps hN s i.2 j.2]
    rfl
  have hsum : (Sp.ofDense S).data.sum = 2 * (2 * Real.pi) := by
    rw [sum_data]
    simp only [Sp.dense_ofDense, hSa]
    rw [sum_around hN, sum_gaps hN]
  have hnnz : ((Sp.ofDense S).nnz : ℝ) = 2 * (Finset.univ.filter fun i : Fin N => gapAt N s i.1 ≠ 0).card := by
    rw [Sp.nnz_eq_card (Sp.canonical_ofDense S) (Sp.clean_ofDense S), Spec.arcs]
    rw [Finset.card_filter, Finset.card_filter]
    push_cast
    rw [← Finset.univ_product_univ, Finset.sum_product]
    have : ∀ i j : Fin N, (if (Sp.ofDense S).dense i j ≠ 0 then (1 : ℝ) else 0) =
        around N (fun k => if gapAt N s k ≠ 0 then (1 : ℝ) else 0) i.1 j.1 := by
      intro i j
      rw [Sp.dense_ofDense, hSa, ← around_map hN i.2 j.2 (gapAt N s) (fun x => if x ≠ 0 then (1 : ℝ) else 0) (by simp)]
    simp only [this]
    rw [sum_around hN]
  have hmean : (Sp.ofDense S).data.sum / (Sp.ofDense S).nnz =
      2 * Real.pi / (Finset.univ.filter fun i : Fin N => gapAt N s i.1 ≠ 0).card := by
    rw [hsum, hnnz, mul_div_mul_left _ _ two_ne_zero]
  obtain ⟨g, g1, g2, g3, g4⟩ := Graph.ofCsr_canonical (mapData (2 * Real.pi / N / ·) (Sp.ofDense S))
    (canonical_mapData _ (Sp.canonical_ofDense S)) hlt
  constructor
  · intro hm
    refine ⟨g, ?_, g2, g4, fun i j => ?_⟩
    · simp only [ringOfSorted, if_neg (show ¬ N < 3 by omega), hW, hS, hmean, if_pos hm, g1]
    · rw [g3, dense_mapData, hSa, around_map hN i.2 j.2 _ (fun x => if x ≠ 0 then 2 * Real.pi / N / x else 0) (by simp)]
  · intro hm
    simp only [ringOfSorted, if_neg (show ¬ N < 3 by omega), hW, hS, hmean, if_neg hm]

theorem sort_perm (l : List ℝ) : (sortAngles l).Perm l := List.mergeSort_perm _ _

theorem sort_sorted (l : List ℝ) : (sortAngles l).Pairwise (· ≤ ·) := by
  have := List.pairwise_mergeSort (le := fun x y : ℝ => decide (x ≤ y))
    (by intro a b c; simp only [decide_eq_true_eq]; exact le_trans)
    (by intro a b; simp only [Bool.or_eq_true, decide_eq_true_eq]; exact le_total a b) l
  simpa [sortAngles] using this

theorem sort_getD_le {l : List ℝ} {i j : ℕ} (h : i ≤ j) (hj : j < l.length) : (sortAngles l).getD i 0 ≤ (sortAngles l).getD j 0 := by
  have hl := (sort_perm l).length_eq
  rw [List.getD_eq_getElem _ _ (by omega), List.getD_eq_getElem _ _ (by omega)]
  rcases h.eq_or_lt with rfl | h
  · exact le_rfl
  · exact List.pairwise_iff_getElem.1 (sort_sorted l) i j (by omega) (by omega) h

theorem sort_getD_mem {l : List ℝ} {i : ℕ} (h : i < l.length) : (sortAngles l).getD i 0 ∈ l := by
  have hl := (sort_perm l).length_eq
  rw [List.getD_eq_getElem _ _ (by omega)]
  exact (sort_perm l).mem_iff.1 (List.getElem_mem _)

theorem sort_getD_lt {l : List ℝ} (hl : l.Nodup) {i j : ℕ} (h : i < j) (hj : j < l.length) :
    (sortAngles l).getD i 0 < (sortAngles l).getD j 0 := by
  refine lt_of_le_of_ne (sort_getD_le h.le hj) fun e => ?_
  have hn := ((sort_perm l).nodup_iff).2 hl
  have hlen := (sort_perm l).length_eq
  rw [List.getD_eq_getElem _ _ (by omega), List.getD_eq_getElem _ _ (by omega)] at e
  have := (List.Nodup.getElem_inj_iff hn).1 e
  omega

theorem sortedTurn {l : List ℝ} (hr : ∀ x ∈ l, 0 ≤ x ∧ x < 2 * Real.pi) (hl : 1 ≤ l.length) : SortedTurn l.length (sortAngles l) := by
  refine ⟨fun i hi => sort_getD_le (by omega) hi, ?_⟩
  have h1 := (hr _ (sort_getD_mem (l := l) (i := l.length - 1) (by omega))).2
  have h2 := (hr _ (sort_getD_mem (l := l) (i := 0) (by omega))).1
  linarith

/-- the call reduces to the sorted angles -/
theorem randomRing_sorted {N : ℕ} {angles : Option (List ℝ)} {draw : ℕ → List ℝ} {l : List ℝ}
    (hA : angles = some l ∨ angles = none ∧ l = draw N ∧ l.length = N) (hr : ∀ x ∈ l, 0 ≤ x ∧ x < 2 * Real.pi) (lt : LapType) :
    randomRing N angles draw lt = ringOfSorted l.length (sortAngles l) lt := by
  rcases hA with rfl | ⟨rfl, rfl, h3⟩
  · simp only [randomRing]
    rw [if_neg, (sort_perm l).length_eq]
    rintro (⟨x, hx, h⟩ | ⟨x, hx, h⟩)
    · exact absurd (hr x ((sort_perm l).mem_iff.1 hx)).1 (not_le.2 h)
    · exact absurd (hr x ((sort_perm l).mem_iff.1 hx)).2 (not_lt.2 h)
  · simp only [randomRing, h3]

theorem gap_arc {l : List ℝ} (hr : ∀ x ∈ l, 0 ≤ x ∧ x < 2 * Real.pi) (hd : l.Nodup) (h3 : 3 ≤ l.length) : ∀ i < l.length, gapAt l.length (sortAngles l) i =
    arcAngle ((sortAngles l).getD i 0) ((sortAngles l).getD ((i + 1) % l.length) 0) ∧ gapAt l.length (sortAngles l) i ≠ 0 := by
  intro i hi
  rw [add_mod_eq hi (by omega)]
  unfold gapAt arcAngle
  by_cases h : i + 1 < l.length
  · have := sort_getD_lt hd (show i < i + 1 by omega) h
    rw [if_pos h, if_pos h, if_pos this]
    exact ⟨rfl, (sub_pos.2 this).ne'⟩
  · obtain rfl : i = l.length - 1 := by omega
    have := sort_getD_lt hd (show 0 < l.length - 1 by omega) hi
    have ht := (sortedTurn hr (by omega)).turn
    rw [if_neg h, if_neg h, show l.length - 1 + 1 - l.length = 0 by omega, if_neg (not_lt.2 this.le)]
    exact ⟨rfl, by linarith⟩

/-- **C80** `RandomRing` connects every vertex to the next one around the circle, with weight `(2π/N)/angle`. -/
theorem C80_weights {N : ℕ} {angles : Option (List ℝ)} {draw : ℕ → List ℝ} {l : List ℝ}
    (hA : angles = some l ∨ angles = none ∧ l = draw N ∧ l.length = N) (hr : ∀ x ∈ l, 0 ≤ x ∧ x < 2 * Real.pi) (hd : l.Nodup)
    (h3 : 3 ≤ l.length) {lt : LapType} (hlt : lt = .combinatorial ∨ lt = .normalized) :
    ∃ r, randomRing N angles draw lt = .ok r ∧ r.N = l.length ∧ r.angles.Perm l ∧ r.angles.Pairwise (· < ·) ∧
      r.coords = r.angles.map (fun a => (Real.cos a, Real.sin a)) ∧ r.graph.Built ∧ r.graph.lapType = lt ∧
      ∀ i j : Fin r.N, r.graph.W.dense i j =
        if (i.1 + 1) % r.N = j.1 then 2 * Real.pi / r.N / arcAngle (r.angles.getD i.1 0) (r.angles.getD j.1 0)
        else if (j.1 + 1) % r.N = i.1 then 2 * Real.pi / r.N / arcAngle (r.angles.getD j.1 0) (r.angles.getD i.1 0)
        else 0 := by
  have hg := gap_arc hr hd h3
  have hcard : (Finset.univ.filter fun i : Fin l.length => gapAt l.length (sortAngles l) i.1 ≠ 0).card = l.length := by
    rw [Finset.filter_true_of_mem fun i _ => (hg i.1 i.2).2]
    simp
  obtain ⟨g, g1, g2, g3, g4⟩ := (ringOfSorted_eq h3 (sortedTurn hr (by omega)) hlt).1 (by rw [hcard]; norm_num)
  refine ⟨_, (randomRing_sorted hA hr lt).trans g1, rfl, sort_perm l, ?_, rfl, g2, g3, fun i j => ?_⟩
  · rw [List.pairwise_iff_getElem]
    intro i j hi hj hij
    have hl := (sort_perm l).length_eq
    have := sort_getD_lt hd hij (by simp only at hj; omega)
    rwa [List.getD_eq_getElem _ _ (by omega), List.getD_eq_getElem _ _ (by omega)] at this
  · rw [g4]
    have hx := around_excl h3 i.2 j.2
    unfold around
    simp only
    by_cases h1 : (i.1 + 1) % l.length = j.1
    · have h2 : ¬ (j.1 + 1) % l.length = i.1 := fun h2 => hx ⟨h1, h2⟩
      rw [if_pos h1, if_neg h2, if_pos h1, add_zero, if_pos (hg i.1 i.2).2, (hg i.1 i.2).1, h1]
    · by_cases h2 : (j.1 + 1) % l.length = i.1
      · rw [if_neg h1, if_pos h2, if_neg h1, if_pos h2, zero_add, if_pos (hg j.1 j.2).2, (hg j.1 j.2).1, h2]
      · rw [if_neg h1, if_neg h2, if_neg h1, if_neg h2, add_zero]

theorem arcAngle_pos {l : List ℝ} (hr : ∀ x ∈ l, 0 ≤ x ∧ x < 2 * Real.pi) {s : List ℝ} (hs : s.Perm l) {i j : ℕ}
    (hi : i < l.length) (hj : j < l.length) : 0 < arcAngle (s.getD i 0) (s.getD j 0) := by
  have hl := hs.length_eq
  have h1 : s.getD i 0 ∈ l := by
    rw [List.getD_eq_getElem _ _ (by omega)]
    exact hs.mem_iff.1 (List.getElem_mem _)
  have h2 : s.getD j 0 ∈ l := by
    rw [List.getD_eq_getElem _ _ (by omega)]
    exact hs.mem_iff.1 (List.getElem_mem _)
  unfold arcAngle
  split
  · linarith
  · linarith [hr _ h1, hr _ h2]

/-- **C80** the graph is an undirected cycle with positive weights: `N` edges, two neighbours per vertex, connected, no self-loop;
the reciprocals of the weights around the circle add up to the number of vertices. -/
theorem C80_structure {N : ℕ} {angles : Option (List ℝ)} {draw : ℕ → List ℝ} {l : List ℝ}
    (hA : angles = some l ∨ angles = none ∧ l = draw N ∧ l.length = N) (hr : ∀ x ∈ l, 0 ≤ x ∧ x < 2 * Real.pi) (hd : l.Nodup)
    (h3 : 3 ≤ l.length) {lt : LapType} (hlt : lt = .combinatorial ∨ lt = .normalized) {r : RandomRing}
    (h : randomRing N angles draw lt = .ok r) :
    Undirected r.graph.W.dense ∧ (∀ i, r.graph.W.dense i i = 0) ∧ (∀ i j, 0 ≤ r.graph.W.dense i j) ∧ r.graph.nEdges = r.N ∧
      (∀ i, (Finset.univ.filter fun j => r.graph.W.dense i j ≠ 0).card = 2) ∧ StronglyConnected r.graph.W.dense ∧
      ∑ i : Fin r.N, ∑ j : Fin r.N, (if (i.1 + 1) % r.N = j.1 then (r.graph.W.dense i j)⁻¹ else 0) = r.N := by
  obtain ⟨r', h1, hN, hp, hlt', -, hb, -, hw⟩ := C80_weights hA hr hd h3 hlt
  rw [h] at h1
  obtain rfl := Except.ok.inj h1
  have h3' : 3 ≤ r.N := by omega
  have hpos : ∀ i j : Fin r.N, 0 < 2 * Real.pi / r.N / arcAngle (r.angles.getD i.1 0) (r.angles.getD j.1 0) := by
    intro i j
    have hi := i.2
    have hj := j.2
    have : (0 : ℝ) < r.N := by exact_mod_cast (by omega : 0 < r.N)
    exact div_pos (div_pos Real.two_pi_pos this) (arcAngle_pos hr hp (by omega) (by omega))
  have hne : ∀ i j : Fin r.N, r.graph.W.dense i j ≠ 0 ↔ (i.1 + 1) % r.N = j.1 ∨ (j.1 + 1) % r.N = i.1 := by
    intro i j
    rw [hw]
    by_cases h1 : (i.1 + 1) % r.N = j.1
    · rw [if_pos h1]
      exact ⟨fun _ => .inl h1, fun _ => (hpos i j).ne'⟩
    · rw [if_neg h1]
      by_cases h2 : (j.1 + 1) % r.N = i.1
      · rw [if_pos h2]
        exact ⟨fun _ => .inr h2, fun _ => (hpos j i).ne'⟩
      · rw [if_neg h2]
        simp [h1, h2]
  obtain ⟨g, hg, -, -, hgd⟩ := C68_weights (N := r.N) (k := 1) h3' (by omega) hlt
  obtain ⟨-, gl, gdeg, -, -, -⟩ := C68_structure h3' (by omega) hg
  have hsame : ∀ i j : Fin r.N, g.W.dense i j ≠ 0 ↔ r.graph.W.dense i j ≠ 0 := by
    intro i j
    rw [hne, hgd, ne_eq, ite_eq_right_iff, Classical.not_imp]
    constructor
    · rintro ⟨⟨d, d1, d2, d3⟩, -⟩
      obtain rfl : d = 1 := by omega
      exact d3
    · intro h'
      exact ⟨⟨1, le_rfl, le_rfl, h'⟩, one_ne_zero⟩
  have hu : Undirected r.graph.W.dense := by
    intro i j
    have := around_excl h3' i.2 j.2
    rw [hw, hw]
    by_cases h1 : (i.1 + 1) % r.N = j.1
    · rw [if_pos h1, if_neg fun h2 => this ⟨h1, h2⟩, if_pos h1]
    · rw [if_neg h1, if_neg h1]
  have hl : ∀ i, r.graph.W.dense i i = 0 := by
    intro i
    by_contra h'
    exact (hsame i i).2 h' (gl i)
  have hdeg : ∀ i, (Finset.univ.filter fun j => r.graph.W.dense i j ≠ 0).card = 2 := by
    intro i
    rw [← show 2 * 1 = 2 from rfl, ← gdeg i]
    congr 1
    ext j
    simp only [Finset.mem_filter, Finset.mem_univ, true_and]
    exact (hsame i j).symm
  refine ⟨hu, hl, fun i j => ?_, ?_, hdeg, ?_, ?_⟩
  · rw [hw]
    split
    · exact (hpos i j).le
    · split
      · exact (hpos j i).le
      · exact le_rfl
  · have := two_edges_card hu hl
    rw [Finset.sum_congr rfl fun i _ => hdeg i, Finset.sum_const, Finset.card_univ, Fintype.card_fin, smul_eq_mul] at this
    rw [C02_n_edges_undirected r.graph hb hu]
    omega
  · refine connected_from_zero hu (by omega) fun v => ?_
    refine reach_up 0 v.1 (by omega) v.2 fun i hi _ _ => ?_
    rw [hne]
    exact .inl (Nat.mod_eq_of_lt hi)
  · have hs : r.angles = sortAngles l :=
      List.Perm.eq_of_pairwise' (r := (· ≤ ·)) (hlt'.imp fun h => le_of_lt h) (sort_sorted l) (hp.trans (sort_perm l).symm)
    have hNr : (r.N : ℝ) ≠ 0 := by exact_mod_cast (by omega : r.N ≠ 0)
    have hin : ∀ i : Fin r.N, ∑ j : Fin r.N, (if (i.1 + 1) % r.N = j.1 then (r.graph.W.dense i j)⁻¹ else 0) =
        r.N / (2 * Real.pi) * gapAt r.N (sortAngles l) i.1 := by
      intro i
      rw [Finset.sum_eq_single ⟨(i.1 + 1) % r.N, Nat.mod_lt _ (by omega)⟩]
      · rw [if_pos rfl, hw, if_pos rfl, hs]
        have e := (gap_arc hr hd h3 i.1 (hN ▸ i.2)).1
        rw [← hN] at e
        rw [e]
        simp only
        rw [inv_div, div_div_eq_mul_div]
        ring
      · intro b _ hb
        exact if_neg fun h => hb (Fin.ext h.symm)
      · simp
    rw [Finset.sum_congr rfl fun i _ => hin i, ← Finset.mul_sum, sum_gaps h3']
    field_simp

/-- **C80** equally spaced angles give the graph of `Ring(N)`: all the weights are one. -/
theorem C80_uniform {N : ℕ} (h3 : 3 ≤ N) (n : ℕ) (draw : ℕ → List ℝ) {lt : LapType} (hlt : lt = .combinatorial ∨ lt = .normalized) :
    ∃ g g' : Graph N ℝ, ∃ s c, randomRing n (some ((List.range N).map fun i : ℕ => 2 * Real.pi * i / N)) draw lt = .ok ⟨N, s, g, c⟩ ∧
      ring N 1 lt = .ok g' ∧ g.W.dense = g'.W.dense := by
  have hN : (0 : ℝ) < N := by exact_mod_cast (by omega : 0 < N)
  have h0 : (0 : ℝ) < 2 * Real.pi / N := div_pos Real.two_pi_pos hN
  set l := (List.range N).map fun i : ℕ => 2 * Real.pi * i / N with hl
  have hlen : l.length = N := by simp [l]
  have hget : ∀ i < N, l.getD i 0 = 2 * Real.pi / N * i := by
    intro i hi
    rw [List.getD_eq_getElem _ _ (by omega)]
    simp only [l, List.getElem_map, List.getElem_range]
    ring
  have hpw : l.Pairwise (· < ·) := by
    rw [List.pairwise_iff_getElem]
    intro i j hi hj hij
    have e1 := hget i (by omega)
    have e2 := hget j (by omega)
    rw [List.getD_eq_getElem _ _ hi] at e1
    rw [List.getD_eq_getElem _ _ hj] at e2
    rw [e1, e2]
    exact mul_lt_mul_of_pos_left (by exact_mod_cast hij) h0
  have hr : ∀ x ∈ l, 0 ≤ x ∧ x < 2 * Real.pi := by
    intro x hx
    obtain ⟨i, hi, rfl⟩ := List.mem_map.1 hx
    have hi : (i : ℝ) < N := by exact_mod_cast List.mem_range.1 hi
    refine ⟨by positivity, ?_⟩
    rw [div_lt_iff₀ hN]
    exact mul_lt_mul_of_pos_left hi Real.two_pi_pos
  obtain ⟨⟨M, s, g, c⟩, e1, e2, e3, e4, e5, e6, e7, e8⟩ := C80_weights (N := n) (draw := draw) (.inl rfl) hr
    (hpw.imp fun h => ne_of_lt h) (by omega) hlt
  simp only at e2 e3 e4 e8
  have hs : s = l := List.Perm.eq_of_pairwise' (r := (· ≤ ·)) (e4.imp fun h => le_of_lt h) (hpw.imp fun h => le_of_lt h) e3
  rw [hlen] at e2
  subst e2
  subst s
  obtain ⟨g', hg, -, -, hgd⟩ := C68_weights (N := M) (k := 1) h3 (by omega) hlt
  refine ⟨g, g', _, c, e1, hg, ?_⟩
  have harc : ∀ i j : ℕ, i < M → (i + 1) % M = j → 2 * Real.pi / M / arcAngle (l.getD i 0) (l.getD j 0) = 1 := by
    intro i j hi hj
    have : arcAngle (l.getD i 0) (l.getD j 0) = 2 * Real.pi / M := by
      have hjM : j < M := hj ▸ Nat.mod_lt _ (by omega)
      rw [hget i hi, hget j hjM]
      rw [add_mod_eq hi (by omega)] at hj
      unfold arcAngle
      split at hj
      · subst hj
        rw [if_pos (mul_lt_mul_of_pos_left (by push_cast; linarith) h0)]
        push_cast
        ring
      · obtain rfl : j = 0 := by omega
        rw [if_neg (not_lt.2 (by push_cast; rw [mul_zero]; positivity))]
        have : (i : ℝ) = M - 1 := by
          rw [eq_sub_iff_add_eq]
          exact_mod_cast (by omega : i + 1 = M)
        rw [this]
        push_cast
        field_simp
        ring
    rw [this, div_self h0.ne']
  ext i j
  rw [e8, hgd]
  by_cases h1 : (i.1 + 1) % M = j.1
  · rw [if_pos h1, if_pos ⟨1, le_rfl, le_rfl, .inl h1⟩, harc _ _ i.2 h1]
  · rw [if_neg h1]
    by_cases h2 : (j.1 + 1) % M = i.1
    · rw [if_pos h2, if_pos ⟨1, le_rfl, le_rfl, .inr h2⟩, harc _ _ j.2 h2]
    · rw [if_neg h2, if_neg]
      rintro ⟨d, d1, d2, d3⟩
      obtain rfl : d = 1 := by omega
      exact d3.elim h1 h2

/-- **C80** the order in which the angles are given is irrelevant. -/
theorem C80_order {l l' : List ℝ} (h : l.Perm l') (N : ℕ) (draw : ℕ → List ℝ) (lt : LapType) :
    randomRing N (some l) draw lt = randomRing N (some l') draw lt := by
  have : sortAngles l = sortAngles l' :=
    List.Perm.eq_of_pairwise' (r := (· ≤ ·)) (sort_sorted l) (sort_sorted l') (((sort_perm l).trans h).trans (sort_perm l').symm)
  simp only [randomRing, this]

/-- **C80** an angle out of `[0, 2π)` raises ValueError, and so do fewer than three vertices. -/
theorem C80_errors (N : ℕ) (draw : ℕ → List ℝ) (lt : LapType) :
    (∀ l : List ℝ, (∃ x ∈ l, x < 0 ∨ 2 * Real.pi ≤ x) ∨ l.length < 3 → randomRing N (some l) draw lt = .error .valueError) ∧
      (N < 3 → randomRing N none draw lt = .error .valueError) := by
  refine ⟨fun l h => ?_, fun h => if_pos h⟩
  simp only [randomRing]
  split
  · rfl
  rename_i hc
  rcases h with ⟨x, hx, h⟩ | h
  · exact absurd (h.imp (fun h => ⟨x, (sort_perm l).mem_iff.2 hx, h⟩) fun h => ⟨x, (sort_perm l).mem_iff.2 hx, h⟩) hc
  · exact if_pos (by rwa [(sort_perm l).length_eq])

/-- Violation: two vertices at the same angle, which nothing in the documentation excludes, make the constructor fail with an
AssertionError (for up to a hundred thousand vertices; beyond, the coincident vertices are silently left unconnected). -/
theorem C80_coincident_violated {l : List ℝ} (hr : ∀ x ∈ l, 0 ≤ x ∧ x < 2 * Real.pi) (hd : ¬ l.Nodup) (h3 : 3 ≤ l.length)
    (hmax : l.length ≤ 100000) (N : ℕ) (draw : ℕ → List ℝ) {lt : LapType} (hlt : lt = .combinatorial ∨ lt = .normalized) :
    randomRing N (some l) draw lt = .error .assertionError := by
  have hst := sortedTurn hr (by omega)
  rw [randomRing_sorted (.inl rfl) hr]
  refine (ringOfSorted_eq h3 hst hlt).2 ?_
  set n := l.length with hn
  set S := Finset.univ.filter fun i : Fin n => gapAt n (sortAngles l) i.1 ≠ 0 with hS
  have hlen := (sort_perm l).length_eq
  have hz : ∃ i : Fin n, gapAt n (sortAngles l) i.1 = 0 := by
    by_contra hc
    push Not at hc
    refine hd ((sort_perm l).nodup_iff.1 ?_)
    have : (sortAngles l).Pairwise (· < ·) := by
      rw [List.pairwise_iff_getElem]
      intro i j hi hj hij
      have e1 := sort_getD_le (l := l) (show i ≤ j - 1 by omega) (by omega)
      have e2 := sort_getD_le (l := l) (show j - 1 ≤ j by omega) (by omega)
      have e3 := hc ⟨j - 1, by omega⟩
      rw [gapAt, if_pos (by simp only; omega)] at e3
      simp only [show j - 1 + 1 = j by omega] at e3
      have := lt_of_le_of_ne e2 fun e => e3 (by rw [e, sub_self])
      have := lt_of_le_of_lt e1 this
      rwa [List.getD_eq_getElem _ _ hi, List.getD_eq_getElem _ _ hj] at this
    exact this.imp fun h => ne_of_lt h
  have hlt' : S.card < n := by
    obtain ⟨i, hi⟩ := hz
    have : S ⊂ Finset.univ := by
      refine Finset.ssubset_univ_iff.2 fun e => ?_
      have : i ∈ S := e ▸ Finset.mem_univ i
      exact (Finset.mem_filter.1 this).2 hi
    simpa using Finset.card_lt_card this
  have hpos : 0 < S.card := by
    refine Finset.card_pos.2 ⟨⟨n - 1, by omega⟩, Finset.mem_filter.2 ⟨Finset.mem_univ _, ?_⟩⟩
    rw [gapAt, if_neg (by simp only; omega)]
    have := hst.turn
    linarith
  rw [not_lt]
  have c1 : (0 : ℝ) < S.card := by exact_mod_cast hpos
  have c2 : (S.card : ℝ) + 1 ≤ n := by exact_mod_cast hlt'
  have c3 : (n : ℝ) ≤ 100000 := by exact_mod_cast hmax
  have hpi := Real.pi_gt_three
  have c4 : (0 : ℝ) < n := by linarith
  rw [div_sub_div _ _ c1.ne' c4.ne', div_le_div_iff₀ (by norm_num) (mul_pos c1 c4)]
  have : (S.card : ℝ) * n ≤ 100000 * 100000 := mul_le_mul (by linarith) c3 c4.le (by norm_num)
  have h6 : (6 : ℝ) * 1 ≤ 2 * Real.pi * (n - S.card) := mul_le_mul (by linarith) (by linarith) (by norm_num) (by linarith)
  nlinarith

/-- Violation: the array of angles given by the caller is sorted in place: unless it was already sorted, it is changed. -/
theorem C80_mutates_violated (l : List ℝ) : (callerAngles l).Perm l ∧ (callerAngles l = l ↔ l.Pairwise (· ≤ ·)) := by
  refine ⟨sort_perm l, fun h => ?_, fun h => ?_⟩
  · rw [← h]
    exact sort_sorted l
  · exact List.Perm.eq_of_pairwise' (r := (· ≤ ·)) (sort_sorted l) h (sort_perm l)

/-- Three angles, not sorted. -/
example : ∃ r, randomRing 64 (some [1, 0, 3]) (fun _ => []) .combinatorial = .ok r ∧ r.N = 3 := by
  obtain ⟨r, h, hN, -⟩ := C80_weights (N := 64) (draw := fun _ => []) (l := [1, 0, 3]) (lt := .combinatorial) (.inl rfl)
    (by
      intro x hx
      have := Real.pi_gt_three
      simp only [List.mem_cons, List.not_mem_nil, or_false] at hx
      rcases hx with rfl | rfl | rfl <;> constructor <;> linarith)
    (by norm_num) (by simp) (.inl rfl)
  exact ⟨r, h, hN⟩

end PyGSP.Gen
