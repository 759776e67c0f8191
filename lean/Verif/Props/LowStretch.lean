import Verif.Model.LowStretch
import Verif.Props.Torus

/-!
# C77: LowStretchTree
-/

namespace PyGSP

open Matrix Spec Gen

namespace Gen

/-! ### unit weights at different positions -/

theorem weightAt_nodup {l : List (ℕ × ℕ)} (h : l.Nodup) (i j : ℕ) :
    weightAt (l.map fun p => (p.1, p.2, 1)) i j = if (i, j) ∈ l then 1 else 0 := by
  unfold weightAt
  rw [List.map_map]
  induction l with
  | nil => simp
  | cons a l ih =>
    rw [List.map_cons, List.sum_cons, ih (List.nodup_cons.1 h).2]
    obtain ⟨x, y⟩ := a
    simp only [Function.comp, List.mem_cons, Prod.mk.injEq]
    by_cases q : x = i ∧ y = j
    · obtain ⟨rfl, rfl⟩ := q
      rw [if_pos ⟨rfl, rfl⟩, if_neg (List.nodup_cons.1 h).1, if_pos (.inl ⟨rfl, rfl⟩), add_zero]
    · rw [if_neg q, zero_add]
      exact if_congr (by constructor; exacts [.inr, fun r => r.resolve_left fun r => q ⟨r.1.symm, r.2.symm⟩]) rfl rfl

theorem card_arcs_list {N : ℕ} {l : List (ℕ × ℕ)} (h : l.Nodup) (hb : ∀ p ∈ l, p.1 < N ∧ p.2 < N) {M : Matrix (Fin N) (Fin N) ℝ}
    (hM : ∀ i j, M i j ≠ 0 ↔ (i.1, j.1) ∈ l) : (arcs M).card = l.length := by
  rw [← List.toFinset_card_of_nodup h]
  refine Finset.card_bij (fun p _ => (p.1.1, p.2.1)) ?_ ?_ ?_
  · intro p hp
    exact List.mem_toFinset.2 ((hM p.1 p.2).1 (Finset.mem_filter.1 hp).2)
  · intro p _ q _ e
    simp only [Prod.mk.injEq] at e
    exact Prod.ext (Fin.ext e.1) (Fin.ext e.2)
  · intro p hp
    have hp := List.mem_toFinset.1 hp
    exact ⟨(⟨p.1, (hb p hp).1⟩, ⟨p.2, (hb p hp).2⟩), Finset.mem_filter.2 ⟨Finset.mem_univ _, (hM _ _).2 hp⟩, rfl⟩

/-! ### the lists -/

/-- a copy of the pairs in another block -/
def lsShift (c : ℕ) (l : List (ℕ × ℕ)) : List (ℕ × ℕ) := l.map fun p => (p.1 + c, p.2 + c)

/-- the four blocks -/
def lsBlocks (P : ℕ) (l : List (ℕ × ℕ)) : List (ℕ × ℕ) := l ++ lsShift P l ++ lsShift (2 * P) l ++ lsShift (3 * P) l

/-- the pairs `(ii, jj)` -/
def lsPairs : ℕ → List (ℕ × ℕ)
  | 0 => [(0, 1), (0, 2), (1, 1), (2, 3), (2, 0), (3, 2)]
  | m + 1 =>
    let t := 4 ^ (m + 1) / 3
    lsBlocks (4 ^ (m + 1)) (lsPairs m) ++
      [(3 * t, 5 * t + 1), (3 * t, 7 * t + 2), (7 * t + 2, 9 * t + 3), (5 * t + 1, 3 * t), (7 * t + 2, 3 * t), (9 * t + 3, 7 * t + 2)]

/-- the tree -/
def lsTree : ℕ → List (ℕ × ℕ)
  | 0 => [(0, 1), (0, 2), (2, 3)]
  | m + 1 =>
    let t := 4 ^ (m + 1) / 3
    lsBlocks (4 ^ (m + 1)) (lsTree m) ++ [(3 * t, 5 * t + 1), (3 * t, 7 * t + 2), (7 * t + 2, 9 * t + 3)]

theorem four_pow (m : ℕ) : ∃ t, 1 ≤ t ∧ 4 ^ (m + 1) = 3 * t + 1 ∧ 4 ^ (m + 1) / 3 = t ∧ 4 ^ (m + 2) = 12 * t + 4 := by
  have h : ∃ t, 1 ≤ t ∧ 4 ^ (m + 1) = 3 * t + 1 := by
    induction m with
    | zero => exact ⟨1, le_rfl, by norm_num⟩
    | succ m ih =>
      obtain ⟨t, h1, h2⟩ := ih
      exact ⟨4 * t + 1, by omega, by rw [pow_succ, h2]; ring⟩
  obtain ⟨t, h1, h2⟩ := h
  exact ⟨t, h1, h2, by omega, by rw [pow_succ, h2]; ring⟩

theorem ls_len (m : ℕ) : (lsII m).length = (lsJJ m).length := by
  induction m with
  | zero => rfl
  | succ m ih => simp [lsII, lsJJ, ih]

theorem ls_zip (m : ℕ) : (lsII m).zip (lsJJ m) = lsPairs m := by
  induction m with
  | zero => rfl
  | succ m ih =>
    obtain ⟨t, h1, h2, h3, h4⟩ := four_pow m
    have hl := ls_len m
    simp only [lsII, lsJJ, lsPairs, lsBlocks, lsShift]
    rw [List.zip_append (by simp [hl]), List.zip_append (by simp [hl]), List.zip_append (by simp [hl]), List.zip_append hl, ih]
    simp only [← ih, List.zip_map, List.map_map]
    congr 1
    rw [h3, show m + 1 + 1 = m + 2 from rfl, h4, h2]
    simp only [List.zip_cons_cons, List.zip_nil_right, List.cons.injEq, Prod.mk.injEq, and_true]
    omega

theorem mem_shift {c : ℕ} {l : List (ℕ × ℕ)} {i j : ℕ} : (i, j) ∈ lsShift c l ↔ ∃ i' j', (i', j') ∈ l ∧ i = i' + c ∧ j = j' + c := by
  unfold lsShift
  simp only [List.mem_map, Prod.exists, Prod.mk.injEq]
  exact ⟨fun ⟨a, b, h, e1, e2⟩ => ⟨a, b, h, e1.symm, e2.symm⟩, fun ⟨a, b, h, e1, e2⟩ => ⟨a, b, h, e1.symm, e2.symm⟩⟩

theorem mem_blocks {P : ℕ} {l : List (ℕ × ℕ)} {i j : ℕ} :
    (i, j) ∈ lsBlocks P l ↔ ∃ q < 4, ∃ i' j', (i', j') ∈ l ∧ i = i' + q * P ∧ j = j' + q * P := by
  unfold lsBlocks
  simp only [List.mem_append, mem_shift]
  constructor
  · rintro (((h | ⟨a, b, h, e⟩) | ⟨a, b, h, e⟩) | ⟨a, b, h, e⟩)
    · exact ⟨0, by norm_num, i, j, h, by simp, by simp⟩
    · exact ⟨1, by norm_num, a, b, h, by simpa using e⟩
    · exact ⟨2, by norm_num, a, b, h, e⟩
    · exact ⟨3, by norm_num, a, b, h, e⟩
  · rintro ⟨q, hq, a, b, h, e⟩
    interval_cases q
    · simp only [zero_mul, add_zero] at e
      obtain ⟨rfl, rfl⟩ := e
      exact .inl (.inl (.inl h))
    · exact .inl (.inl (.inr ⟨a, b, h, by simpa using e⟩))
    · exact .inl (.inr ⟨a, b, h, e⟩)
    · exact .inr ⟨a, b, h, e⟩

theorem blocks_nodup {P : ℕ} {l : List (ℕ × ℕ)} (h : l.Nodup) (hb : ∀ p ∈ l, p.1 < P ∧ p.2 < P) : (lsBlocks P l).Nodup := by
  have hs : ∀ c, (lsShift c l).Nodup := fun c => h.map fun p q e => by
    simp only [Prod.mk.injEq] at e
    exact Prod.ext (by omega) (by omega)
  unfold lsBlocks
  refine ((h.append (hs P) ?_).append (hs (2 * P)) ?_).append (hs (3 * P)) ?_
  · rintro ⟨i, j⟩ h1 h2
    obtain ⟨a, b, -, e1, -⟩ := mem_shift.1 h2
    have := hb _ h1
    simp only at this
    omega
  · rintro ⟨i, j⟩ h1 h2
    obtain ⟨a, b, -, e1, -⟩ := mem_shift.1 h2
    rcases List.mem_append.1 h1 with h1 | h1
    · have := hb _ h1
      simp only at this
      omega
    · obtain ⟨a', b', h', e1', -⟩ := mem_shift.1 h1
      have := hb _ h'
      simp only at this
      omega
  · rintro ⟨i, j⟩ h1 h2
    obtain ⟨a, b, -, e1, -⟩ := mem_shift.1 h2
    rcases List.mem_append.1 h1 with h1 | h1
    · rcases List.mem_append.1 h1 with h1 | h1
      · have := hb _ h1
        simp only at this
        omega
      · obtain ⟨a', b', h', e1', -⟩ := mem_shift.1 h1
        have := hb _ h'
        simp only at this
        omega
    · obtain ⟨a', b', h', e1', -⟩ := mem_shift.1 h1
      have := hb _ h'
      simp only at this
      omega

theorem blocks_len (P : ℕ) (l : List (ℕ × ℕ)) : (lsBlocks P l).length = 4 * l.length := by
  simp [lsBlocks, lsShift]; ring

/-- both ends of a pair of a block are in that block -/
theorem blocks_same {P : ℕ} {l : List (ℕ × ℕ)} (hb : ∀ p ∈ l, p.1 < P ∧ p.2 < P) {i j : ℕ} (h : (i, j) ∈ lsBlocks P l) :
    (i < P ∧ j < P) ∨ (P ≤ i ∧ i < 2 * P ∧ P ≤ j ∧ j < 2 * P) ∨ (2 * P ≤ i ∧ i < 3 * P ∧ 2 * P ≤ j ∧ j < 3 * P) ∨
      (3 * P ≤ i ∧ i < 4 * P ∧ 3 * P ≤ j ∧ j < 4 * P) := by
  obtain ⟨q, hq, a, b, hab, e1, e2⟩ := mem_blocks.1 h
  have := hb _ hab
  simp only at this
  interval_cases q <;> omega

theorem mem_pairs_succ {m t : ℕ} (ht : 4 ^ (m + 1) / 3 = t) {i j : ℕ} : (i, j) ∈ lsPairs (m + 1) ↔ (i, j) ∈ lsBlocks (4 ^ (m + 1)) (lsPairs m) ∨
    (i = 3 * t ∧ j = 5 * t + 1) ∨ (i = 3 * t ∧ j = 7 * t + 2) ∨ (i = 7 * t + 2 ∧ j = 9 * t + 3) ∨
      (i = 5 * t + 1 ∧ j = 3 * t) ∨ (i = 7 * t + 2 ∧ j = 3 * t) ∨ (i = 9 * t + 3 ∧ j = 7 * t + 2) := by
  subst ht
  simp only [lsPairs, List.mem_append, List.mem_cons, Prod.mk.injEq, List.not_mem_nil, or_false]

theorem mem_tree_succ {m t : ℕ} (ht : 4 ^ (m + 1) / 3 = t) {i j : ℕ} : (i, j) ∈ lsTree (m + 1) ↔ (i, j) ∈ lsBlocks (4 ^ (m + 1)) (lsTree m) ∨
    (i = 3 * t ∧ j = 5 * t + 1) ∨ (i = 3 * t ∧ j = 7 * t + 2) ∨ (i = 7 * t + 2 ∧ j = 9 * t + 3) := by
  subst ht
  simp only [lsTree, List.mem_append, List.mem_cons, Prod.mk.injEq, List.not_mem_nil, or_false]

theorem pairs_bound (m : ℕ) : ∀ p ∈ lsPairs m, p.1 < 4 ^ (m + 1) ∧ p.2 < 4 ^ (m + 1) := by
  induction m with
  | zero => decide
  | succ m ih =>
    obtain ⟨t, h1, h2, h3, h4⟩ := four_pow m
    rintro ⟨i, j⟩ h
    rw [show m + 1 + 1 = m + 2 from rfl, h4]
    rcases (mem_pairs_succ h3).1 h with h | h
    · have := blocks_same ih h
      rw [h2] at this
      simp only
      omega
    · simp only
      omega

theorem pairs_nodup (m : ℕ) : (lsPairs m).Nodup := by
  induction m with
  | zero => decide
  | succ m ih =>
    obtain ⟨t, h1, h2, h3, h4⟩ := four_pow m
    rw [lsPairs]
    refine (blocks_nodup ih (pairs_bound m)).append ?_ ?_
    · rw [h3]
      simp only [List.nodup_cons, List.mem_cons, Prod.mk.injEq, List.not_mem_nil, not_false_eq_true, List.nodup_nil, and_true, or_false]
      omega
    · rintro ⟨i, j⟩ q1 q2
      have q1 := blocks_same (pairs_bound m) q1
      rw [h2] at q1
      rw [h3] at q2
      simp only [List.mem_cons, Prod.mk.injEq, List.not_mem_nil, or_false] at q2
      omega

theorem pairs_len (m : ℕ) : (lsPairs m).length = 2 * (4 ^ (m + 1) - 1) := by
  induction m with
  | zero => rfl
  | succ m ih =>
    obtain ⟨t, h1, h2, h3, h4⟩ := four_pow m
    rw [lsPairs, List.length_append, blocks_len, ih, show m + 1 + 1 = m + 2 from rfl, h4, h2]
    simp only [List.length_cons, List.length_nil]
    omega

theorem tree_sub (m : ℕ) : ∀ i j, (i, j) ∈ lsTree m → (i, j) ∈ lsPairs m := by
  induction m with
  | zero =>
    intro i j h
    simp only [lsTree, lsPairs, List.mem_cons, Prod.mk.injEq, List.not_mem_nil, or_false] at *
    omega
  | succ m ih =>
    intro i j h
    rcases (mem_tree_succ rfl).1 h with h | h
    · obtain ⟨q, hq, a, b, hab, e⟩ := mem_blocks.1 h
      exact (mem_pairs_succ rfl).2 (.inl (mem_blocks.2 ⟨q, hq, a, b, ih _ _ hab, e⟩))
    · exact (mem_pairs_succ rfl).2 (.inr (by omega))

theorem pairs_sub (m : ℕ) : ∀ i j, (i, j) ∈ lsPairs m → i = j ∨ (i, j) ∈ lsTree m ∨ (j, i) ∈ lsTree m := by
  induction m with
  | zero =>
    intro i j h
    simp only [lsTree, lsPairs, List.mem_cons, Prod.mk.injEq, List.not_mem_nil, or_false] at *
    omega
  | succ m ih =>
    intro i j h
    rcases (mem_pairs_succ rfl).1 h with h | h
    · obtain ⟨q, hq, a, b, hab, e1, e2⟩ := mem_blocks.1 h
      rcases ih _ _ hab with r | r | r
      · exact .inl (by omega)
      · exact .inr (.inl ((mem_tree_succ rfl).2 (.inl (mem_blocks.2 ⟨q, hq, a, b, r, e1, e2⟩))))
      · exact .inr (.inr ((mem_tree_succ rfl).2 (.inl (mem_blocks.2 ⟨q, hq, b, a, r, e2, e1⟩))))
    · rw [mem_tree_succ rfl, mem_tree_succ rfl]
      omega

theorem tree_lt (m : ℕ) : ∀ i j, (i, j) ∈ lsTree m → i < j := by
  induction m with
  | zero =>
    intro i j h
    simp only [lsTree, List.mem_cons, Prod.mk.injEq, List.not_mem_nil, or_false] at *
    omega
  | succ m ih =>
    intro i j h
    rcases (mem_tree_succ rfl).1 h with h | h
    · obtain ⟨q, hq, a, b, hab, e1, e2⟩ := mem_blocks.1 h
      have := ih _ _ hab
      omega
    · omega

theorem tree_bound (m : ℕ) : ∀ p ∈ lsTree m, p.1 < 4 ^ (m + 1) ∧ p.2 < 4 ^ (m + 1) := fun p hp => pairs_bound m p (tree_sub m p.1 p.2 hp)

theorem tree_nodup (m : ℕ) : (lsTree m).Nodup := by
  induction m with
  | zero => decide
  | succ m ih =>
    obtain ⟨t, h1, h2, h3, h4⟩ := four_pow m
    rw [lsTree]
    refine (blocks_nodup ih (tree_bound m)).append ?_ ?_
    · rw [h3]
      simp only [List.nodup_cons, List.mem_cons, Prod.mk.injEq, List.not_mem_nil, not_false_eq_true, List.nodup_nil, and_true, or_false]
      omega
    · rintro ⟨i, j⟩ q1 q2
      have q1 := blocks_same (tree_bound m) q1
      rw [h2] at q1
      rw [h3] at q2
      simp only [List.mem_cons, Prod.mk.injEq, List.not_mem_nil, or_false] at q2
      omega

theorem tree_len (m : ℕ) : (lsTree m).length = 4 ^ (m + 1) - 1 := by
  induction m with
  | zero => rfl
  | succ m ih =>
    obtain ⟨t, h1, h2, h3, h4⟩ := four_pow m
    rw [lsTree, List.length_append, blocks_len, ih, show m + 1 + 1 = m + 2 from rfl, h4, h2]
    simp only [List.length_cons, List.length_nil]
    omega

/-- the tree without directions -/
def lsRel (m : ℕ) (i j : ℕ) : Prop := (i, j) ∈ lsTree m ∨ (j, i) ∈ lsTree m

theorem lsRel_symm {m i j : ℕ} (h : Relation.ReflTransGen (lsRel m) i j) : Relation.ReflTransGen (lsRel m) j i := by
  induction h with
  | refl => exact .refl
  | tail _ h ih => exact .head h.symm ih

theorem ls_connected (m : ℕ) : ∀ i < 4 ^ (m + 1), Relation.ReflTransGen (lsRel m) i 0 := by
  induction m with
  | zero =>
    intro i hi
    have h10 : lsRel 0 1 0 := .inr (by decide)
    have h20 : lsRel 0 2 0 := .inr (by decide)
    have h32 : lsRel 0 3 2 := .inr (by decide)
    interval_cases i
    · exact .refl
    · exact .single h10
    · exact .single h20
    · exact .head h32 (.single h20)
  | succ m ih =>
    obtain ⟨t, h1, h2, h3, h4⟩ := four_pow m
    have hblock : ∀ q < 4, ∀ i < 4 ^ (m + 1), Relation.ReflTransGen (lsRel (m + 1)) (i + q * 4 ^ (m + 1)) (0 + q * 4 ^ (m + 1)) := by
      intro q hq i hi
      refine Relation.ReflTransGen.lift (fun x => x + q * 4 ^ (m + 1)) ?_ _ _ (ih i hi)
      rintro a b (h | h)
      · exact .inl ((mem_tree_succ h3).2 (.inl (mem_blocks.2 ⟨q, hq, a, b, h, rfl, rfl⟩)))
      · exact .inr ((mem_tree_succ h3).2 (.inl (mem_blocks.2 ⟨q, hq, b, a, h, rfl, rfl⟩)))
    rw [h2] at hblock
    have hba : lsRel (m + 1) (5 * t + 1) (3 * t) := .inr ((mem_tree_succ h3).2 (by omega))
    have hca : lsRel (m + 1) (7 * t + 2) (3 * t) := .inr ((mem_tree_succ h3).2 (by omega))
    have hdc : lsRel (m + 1) (9 * t + 3) (7 * t + 2) := .inr ((mem_tree_succ h3).2 (by omega))
    have ra : Relation.ReflTransGen (lsRel (m + 1)) (3 * t) 0 := by
      have := hblock 0 (by norm_num) (3 * t) (by omega)
      simpa using this
    have rb : Relation.ReflTransGen (lsRel (m + 1)) (3 * t + 1) (5 * t + 1) := by
      have := hblock 1 (by norm_num) (2 * t) (by omega)
      rw [show 2 * t + 1 * (3 * t + 1) = 5 * t + 1 by ring, show 0 + 1 * (3 * t + 1) = 3 * t + 1 by ring] at this
      exact lsRel_symm this
    have rc : Relation.ReflTransGen (lsRel (m + 1)) (6 * t + 2) (7 * t + 2) := by
      have := hblock 2 (by norm_num) t (by omega)
      rw [show t + 2 * (3 * t + 1) = 7 * t + 2 by ring, show 0 + 2 * (3 * t + 1) = 6 * t + 2 by ring] at this
      exact lsRel_symm this
    have hc0 : Relation.ReflTransGen (lsRel (m + 1)) (7 * t + 2) 0 := .head hca ra
    intro i hi
    rw [show m + 1 + 1 = m + 2 from rfl, h4] at hi
    have key : ∀ q < 4, ∀ x < 3 * t + 1, i = x + q * (3 * t + 1) → Relation.ReflTransGen (lsRel (m + 1)) (0 + q * (3 * t + 1)) 0 →
        Relation.ReflTransGen (lsRel (m + 1)) i 0 := by
      intro q hq x hx e h
      rw [e]
      exact (hblock q hq x hx).trans h
    rcases Nat.lt_or_ge i (3 * t + 1) with q1 | q1
    · exact key 0 (by norm_num) i q1 (by simp) (by simpa using Relation.ReflTransGen.refl)
    rcases Nat.lt_or_ge i (2 * (3 * t + 1)) with q2 | q2
    · refine key 1 (by norm_num) (i - (3 * t + 1)) (by omega) (by omega) ?_
      rw [show 0 + 1 * (3 * t + 1) = 3 * t + 1 by ring]
      exact rb.trans (.head hba ra)
    rcases Nat.lt_or_ge i (3 * (3 * t + 1)) with q3 | q3
    · refine key 2 (by norm_num) (i - 2 * (3 * t + 1)) (by omega) (by omega) ?_
      rw [show 0 + 2 * (3 * t + 1) = 6 * t + 2 by ring]
      exact rc.trans hc0
    · refine key 3 (by norm_num) (i - 3 * (3 * t + 1)) (by omega) (by omega) ?_
      rw [show 0 + 3 * (3 * t + 1) = 9 * t + 3 by ring]
      exact .head hdc hc0

/-! ### what is wrong -/

theorem pairs_from_one (m : ℕ) : ∀ j, (1, j) ∈ lsPairs m → j = 1 := by
  induction m with
  | zero =>
    intro j h
    simp only [lsPairs, List.mem_cons, Prod.mk.injEq, List.not_mem_nil, or_false] at *
    omega
  | succ m ih =>
    intro j h
    obtain ⟨t, h1, h2, h3, h4⟩ := four_pow m
    rcases (mem_pairs_succ h3).1 h with h | h
    · obtain ⟨q, hq, a, b, hab, e1, e2⟩ := mem_blocks.1 h
      rw [h2] at e1 e2
      have hq0 : q = 0 := by
        rcases Nat.eq_zero_or_pos q with r | r
        · exact r
        · have := Nat.le_mul_of_pos_left (3 * t + 1) r; omega
      subst hq0
      simp only [zero_mul, add_zero] at e1 e2
      subst e1 e2
      exact ih _ hab
    · omega

theorem pairs_four (m : ℕ) : ∀ b < 4 ^ m, (4 * b, 4 * b + 1) ∈ lsPairs m ∧ (4 * b + 1, 4 * b) ∉ lsPairs m ∧ (4 * b + 1, 4 * b + 1) ∈ lsPairs m := by
  induction m with
  | zero =>
    intro b hb
    obtain rfl : b = 0 := by omega
    decide
  | succ m ih =>
    intro b hb
    obtain ⟨t, h1, h2, h3, h4⟩ := four_pow m
    have hP : 4 ^ (m + 1) = 4 * 4 ^ m := by rw [pow_succ]; ring
    have hq : b / 4 ^ m < 4 := (Nat.div_lt_iff_lt_mul (by positivity)).2 (by omega)
    have hr : b % 4 ^ m < 4 ^ m := Nat.mod_lt _ (by positivity)
    have hb' : 4 * b = 4 * (b % 4 ^ m) + b / 4 ^ m * 4 ^ (m + 1) := by
      have := Nat.div_add_mod b (4 ^ m)
      rw [hP]
      nlinarith [this]
    obtain ⟨i1, i2, i3⟩ := ih _ hr
    refine ⟨?_, ?_, ?_⟩
    · exact (mem_pairs_succ h3).2 (.inl (mem_blocks.2 ⟨_, hq, _, _, i1, hb', by omega⟩))
    · intro h
      rcases (mem_pairs_succ h3).1 h with h | h
      · obtain ⟨q, hq', x, y, hxy, e1, e2⟩ := mem_blocks.1 h
        have hx := pairs_bound m _ hxy
        simp only at hx
        have hy : 4 * (b % 4 ^ m) < 4 ^ (m + 1) := by omega
        have hqq : q = b / 4 ^ m := by
          have e3 : y + q * 4 ^ (m + 1) = 4 * (b % 4 ^ m) + b / 4 ^ m * 4 ^ (m + 1) := by omega
          have := congrArg (· / 4 ^ (m + 1)) e3
          simp only [Nat.add_mul_div_right _ _ (show 0 < 4 ^ (m + 1) by positivity), Nat.div_eq_of_lt hx.2, Nat.div_eq_of_lt hy] at this
          omega
        subst hqq
        have ex : x = 4 * (b % 4 ^ m) + 1 := by omega
        have ey : y = 4 * (b % 4 ^ m) := by omega
        subst ex ey
        exact i2 hxy
      · omega
    · exact (mem_pairs_succ h3).2 (.inl (mem_blocks.2 ⟨_, hq, _, _, i3, by omega, by omega⟩))

/-! ### the coordinates -/

theorem lsX_len (m : ℕ) : (lsX m).length = 4 ^ (m + 1) := by
  induction m with
  | zero => rfl
  | succ m ih => simp only [lsX, List.length_append, List.length_map, ih]; rw [pow_succ 4 (m + 1)]; ring

theorem lsY_len (m : ℕ) : (lsY m).length = 4 ^ (m + 1) := by
  induction m with
  | zero => rfl
  | succ m ih => simp only [lsY, List.length_append, List.length_map, ih]; rw [pow_succ 4 (m + 1)]; ring

/-- coordinates after `m` turns -/
def lsXY (m v : ℕ) : ℕ × ℕ := ((lsX m).getD v 0, (lsY m).getD v 0)

theorem getD_left {l l' : List ℕ} {v : ℕ} (h : v < l.length) : (l ++ l').getD v 0 = l.getD v 0 := by
  simp [List.getD_eq_getElem?_getD, List.getElem?_append_left h]

theorem getD_right {l l' : List ℕ} {v c : ℕ} (h : l.length = c) : (l ++ l').getD (v + c) 0 = l'.getD v 0 := by
  subst h
  rw [List.getD_eq_getElem?_getD, List.getD_eq_getElem?_getD, List.getElem?_append_right (by omega), Nat.add_sub_cancel]

theorem getD_map_add {l : List ℕ} {v c : ℕ} (h : v < l.length) : (l.map (· + c)).getD v 0 = l.getD v 0 + c := by
  simp [List.getD_eq_getElem?_getD, h]

theorem lsXY_block (m : ℕ) {v : ℕ} (hv : v < 4 ^ (m + 1)) :
    lsXY (m + 1) v = lsXY m v ∧ lsXY (m + 1) (v + 4 ^ (m + 1)) = ((lsXY m v).1 + 2 ^ (m + 1), (lsXY m v).2) ∧
      lsXY (m + 1) (v + 2 * 4 ^ (m + 1)) = ((lsXY m v).1, (lsXY m v).2 + 2 ^ (m + 1)) ∧
      lsXY (m + 1) (v + 3 * 4 ^ (m + 1)) = ((lsXY m v).1 + 2 ^ (m + 1), (lsXY m v).2 + 2 ^ (m + 1)) := by
  have hx := lsX_len m
  have hy := lsY_len m
  have hx2 : (lsX m ++ (lsX m).map (· + 2 ^ (m + 1))).length = 2 * 4 ^ (m + 1) := by simp [hx]; ring
  have hy2 : (lsY m ++ lsY m).length = 2 * 4 ^ (m + 1) := by simp [hy]; ring
  have e3 : v + 3 * 4 ^ (m + 1) = v + 4 ^ (m + 1) + 2 * 4 ^ (m + 1) := by ring
  unfold lsXY
  simp only [lsX, lsY]
  refine ⟨?_, ?_, ?_, ?_⟩
  · rw [getD_left (by omega), getD_left (by omega), getD_left (by omega), getD_left (by omega)]
  · rw [getD_left (by omega), getD_right hx, getD_map_add (by omega), getD_left (by omega), getD_right hy]
  · rw [getD_right hx2, getD_left (by omega), getD_right hy2, getD_map_add (by omega), getD_left (by omega)]
  · rw [e3, getD_right hx2, getD_right hx, getD_map_add (by omega), getD_right hy2, getD_map_add (by omega), getD_right hy]

/-- the four corners -/
theorem lsXY_corners (m t : ℕ) (ht : 4 ^ (m + 1) = 3 * t + 1) :
    lsXY m 0 = (1, 1) ∧ lsXY m (3 * t) = (2 ^ (m + 1), 2 ^ (m + 1)) ∧ lsXY m (2 * t) = (1, 2 ^ (m + 1)) ∧ lsXY m t = (2 ^ (m + 1), 1) := by
  induction m generalizing t with
  | zero =>
    obtain rfl : t = 1 := by norm_num at ht; omega
    decide
  | succ m ih =>
    obtain ⟨s, h1, h2, h3, h4⟩ := four_pow m
    obtain ⟨i1, i2, i3, i4⟩ := ih s h2
    rw [show m + 1 + 1 = m + 2 from rfl, h4] at ht
    obtain rfl : t = 4 * s + 1 := by omega
    have hpow : 2 ^ (m + 1 + 1) = 2 ^ (m + 1) + 2 ^ (m + 1) := by rw [pow_succ]; ring
    refine ⟨?_, ?_, ?_, ?_⟩
    · rw [(lsXY_block m (v := 0) (by omega)).1, i1]
    · rw [show 3 * (4 * s + 1) = 3 * s + 3 * 4 ^ (m + 1) by rw [h2]; ring, (lsXY_block m (v := 3 * s) (by omega)).2.2.2, i2, hpow]
    · rw [show 2 * (4 * s + 1) = 2 * s + 2 * 4 ^ (m + 1) by rw [h2]; ring, (lsXY_block m (v := 2 * s) (by omega)).2.2.1, i3, hpow]
    · rw [show 4 * s + 1 = s + 4 ^ (m + 1) by rw [h2]; ring, (lsXY_block m (v := s) (by omega)).2.1, i4, hpow]

/-- neighbours on the grid -/
theorem ls_neighbours (m : ℕ) : ∀ i j, (i, j) ∈ lsTree m → ndist (lsXY m i).1 (lsXY m j).1 + ndist (lsXY m i).2 (lsXY m j).2 = 1 := by
  induction m with
  | zero =>
    intro i j h
    simp only [lsTree, List.mem_cons, Prod.mk.injEq, List.not_mem_nil, or_false] at h
    rcases h with ⟨rfl, rfl⟩ | ⟨rfl, rfl⟩ | ⟨rfl, rfl⟩ <;> decide
  | succ m ih =>
    intro i j h
    obtain ⟨t, h1, h2, h3, h4⟩ := four_pow m
    obtain ⟨c1, c2, c3, c4⟩ := lsXY_corners m t h2
    rcases (mem_tree_succ h3).1 h with h | h
    · obtain ⟨q, hq, a, b, hab, e1, e2⟩ := mem_blocks.1 h
      have hb := tree_bound m _ hab
      simp only at hb
      have ha' := lsXY_block m hb.1
      have hb' := lsXY_block m hb.2
      have := ih _ _ hab
      unfold ndist at *
      interval_cases q
      · simp only [zero_mul, add_zero] at e1 e2
        rw [e1, e2, ha'.1, hb'.1]; exact this
      · rw [one_mul] at e1 e2
        rw [e1, e2, ha'.2.1, hb'.2.1]; simp only; omega
      · rw [e1, e2, ha'.2.2.1, hb'.2.2.1]; simp only; omega
      · rw [e1, e2, ha'.2.2.2, hb'.2.2.2]; simp only; omega
    · have p1 : lsXY (m + 1) (3 * t) = (2 ^ (m + 1), 2 ^ (m + 1)) := by
        rw [(lsXY_block m (v := 3 * t) (by omega)).1, c2]
      have p2 : lsXY (m + 1) (5 * t + 1) = (1 + 2 ^ (m + 1), 2 ^ (m + 1)) := by
        rw [show 5 * t + 1 = 2 * t + 4 ^ (m + 1) by omega, (lsXY_block m (v := 2 * t) (by omega)).2.1, c3]
      have p3 : lsXY (m + 1) (7 * t + 2) = (2 ^ (m + 1), 1 + 2 ^ (m + 1)) := by
        rw [show 7 * t + 2 = t + 2 * 4 ^ (m + 1) by omega, (lsXY_block m (v := t) (by omega)).2.2.1, c4]
      have p4 : lsXY (m + 1) (9 * t + 3) = (1 + 2 ^ (m + 1), 1 + 2 ^ (m + 1)) := by
        rw [show 9 * t + 3 = 0 + 3 * 4 ^ (m + 1) by omega, (lsXY_block m (v := 0) (by omega)).2.2.2, c1]
      unfold ndist
      rcases h with ⟨rfl, rfl⟩ | ⟨rfl, rfl⟩ | ⟨rfl, rfl⟩
      · rw [p1, p2]; simp only; omega
      · rw [p1, p3]; simp only; omega
      · rw [p3, p4]; simp only; omega

theorem ls_range (m : ℕ) : ∀ v < 4 ^ (m + 1), 1 ≤ (lsXY m v).1 ∧ (lsXY m v).1 ≤ 2 ^ (m + 1) ∧ 1 ≤ (lsXY m v).2 ∧ (lsXY m v).2 ≤ 2 ^ (m + 1) := by
  induction m with
  | zero => decide
  | succ m ih =>
    intro v hv
    rw [show m + 1 + 1 = m + 2 from rfl, show 4 ^ (m + 2) = 4 * 4 ^ (m + 1) by rw [pow_succ]; ring] at hv
    have hpow : 2 ^ (m + 1 + 1) = 2 ^ (m + 1) + 2 ^ (m + 1) := by rw [pow_succ]; ring
    rw [hpow]
    have key : ∃ q < 4, ∃ w < 4 ^ (m + 1), v = w + q * 4 ^ (m + 1) :=
      ⟨v / 4 ^ (m + 1), (Nat.div_lt_iff_lt_mul (by positivity)).2 hv, v % 4 ^ (m + 1), Nat.mod_lt _ (by positivity), by
        have := Nat.mod_add_div v (4 ^ (m + 1)); rw [mul_comm] at this; exact this.symm⟩
    obtain ⟨q, hq, w, hw, rfl⟩ := key
    have hb := lsXY_block m hw
    have := ih w hw
    interval_cases q
    · simp only [zero_mul, add_zero]; rw [hb.1]; omega
    · rw [one_mul, hb.2.1]; simp only; omega
    · rw [hb.2.2.1]; simp only; omega
    · rw [hb.2.2.2]; simp only; omega

theorem ls_surj (m : ℕ) : ∀ x y, 1 ≤ x → x ≤ 2 ^ (m + 1) → 1 ≤ y → y ≤ 2 ^ (m + 1) → ∃ v < 4 ^ (m + 1), lsXY m v = (x, y) := by
  induction m with
  | zero =>
    intro x y h1 h2 h3 h4
    norm_num at h2 h4
    interval_cases x <;> interval_cases y <;> decide
  | succ m ih =>
    intro x y h1 h2 h3 h4
    have hpow : 2 ^ (m + 1 + 1) = 2 ^ (m + 1) + 2 ^ (m + 1) := by rw [pow_succ]; ring
    have h4' : 4 ^ (m + 1 + 1) = 4 * 4 ^ (m + 1) := by rw [pow_succ]; ring
    rw [hpow] at h2 h4
    rw [h4']
    rcases Nat.lt_or_ge (2 ^ (m + 1)) x with hx | hx <;> rcases Nat.lt_or_ge (2 ^ (m + 1)) y with hy | hy
    · obtain ⟨v, hv, e⟩ := ih (x - 2 ^ (m + 1)) (y - 2 ^ (m + 1)) (by omega) (by omega) (by omega) (by omega)
      refine ⟨v + 3 * 4 ^ (m + 1), by omega, ?_⟩
      rw [(lsXY_block m hv).2.2.2, e]
      simp only [Prod.mk.injEq]; omega
    · obtain ⟨v, hv, e⟩ := ih (x - 2 ^ (m + 1)) y (by omega) (by omega) (by omega) (by omega)
      refine ⟨v + 4 ^ (m + 1), by omega, ?_⟩
      rw [(lsXY_block m hv).2.1, e]
      exact Prod.ext (show x - 2 ^ (m + 1) + 2 ^ (m + 1) = x by omega) rfl
    · obtain ⟨v, hv, e⟩ := ih x (y - 2 ^ (m + 1)) (by omega) (by omega) (by omega) (by omega)
      refine ⟨v + 2 * 4 ^ (m + 1), by omega, ?_⟩
      rw [(lsXY_block m hv).2.2.1, e]
      exact Prod.ext rfl (show y - 2 ^ (m + 1) + 2 ^ (m + 1) = y by omega)
    · obtain ⟨v, hv, e⟩ := ih x y (by omega) (by omega) (by omega) (by omega)
      refine ⟨v, by omega, ?_⟩
      rw [(lsXY_block m hv).1, e]

/-! ### the graph -/

theorem lsSize_eq {l : List ℕ} {N : ℕ} (hb : ∀ x ∈ l, x < N) (hN : 0 < N) (hm : N - 1 ∈ l) : lsSize l = N := by
  have h1 : ∀ l : List ℕ, (∀ x ∈ l, x < N) → l.foldr max 0 ≤ N - 1 := by
    intro l
    induction l with
    | nil => simp
    | cons a l ih =>
      intro h
      rw [List.foldr_cons]
      have := ih fun x hx => h x (List.mem_cons_of_mem _ hx)
      have := h a List.mem_cons_self
      omega
  have h2 : ∀ l : List ℕ, ∀ x ∈ l, x ≤ l.foldr max 0 := by
    intro l
    induction l with
    | nil => simp
    | cons a l ih =>
      intro x hx
      rw [List.foldr_cons]
      rcases List.mem_cons.1 hx with rfl | hx
      · exact le_max_left _ _
      · exact (ih x hx).trans (le_max_right _ _)
  have := h1 l hb
  have := h2 l _ hm
  unfold lsSize
  omega

theorem ls_last (m : ℕ) : ∃ j, (4 ^ (m + 1) - 1, j) ∈ lsPairs m ∧ (j, 4 ^ (m + 1) - 1) ∈ lsPairs m := by
  induction m with
  | zero => exact ⟨2, by decide⟩
  | succ m ih =>
    obtain ⟨t, h1, h2, h3, h4⟩ := four_pow m
    obtain ⟨j, j1, j2⟩ := ih
    rw [h2] at j1 j2
    rw [show m + 1 + 1 = m + 2 from rfl, h4]
    refine ⟨j + 3 * 4 ^ (m + 1), ?_, ?_⟩
    · exact (mem_pairs_succ h3).2 (.inl (mem_blocks.2 ⟨3, by norm_num, _, _, j1, by omega, rfl⟩))
    · exact (mem_pairs_succ h3).2 (.inl (mem_blocks.2 ⟨3, by norm_num, _, _, j2, rfl, by omega⟩))

theorem ls_ok (k : ℕ) {lt : LapType} (hlt : lt = .combinatorial ∨ lt = .normalized) :
    ∃ g, lowStretchTree k lt = .ok g ∧ g.Built ∧ ∀ i j, g.W.dense i j = if (i.1, j.1) ∈ lsPairs (k - 1) then 1 else 0 := by
  let m := k - 1
  have hb := pairs_bound m
  have hzip := ls_zip m
  have hones : ones (lsII m) (lsJJ m) = (lsPairs m).map fun p => (p.1, p.2, 1) := by rw [ones, hzip]
  have hI : ∀ x ∈ lsII m, ∃ y, (x, y) ∈ lsPairs m := by
    intro x hx
    have : x ∈ ((lsII m).zip (lsJJ m)).map Prod.fst := by rw [List.map_fst_zip (ls_len m).le]; exact hx
    rw [hzip] at this
    obtain ⟨p, hp, rfl⟩ := List.mem_map.1 this
    exact ⟨p.2, hp⟩
  have hJ : ∀ y ∈ lsJJ m, ∃ x, (x, y) ∈ lsPairs m := by
    intro y hy
    have : y ∈ ((lsII m).zip (lsJJ m)).map Prod.snd := by rw [List.map_snd_zip (ls_len m).ge]; exact hy
    rw [hzip] at this
    obtain ⟨p, hp, rfl⟩ := List.mem_map.1 this
    exact ⟨p.1, hp⟩
  have hpairI : ∀ x y, (x, y) ∈ lsPairs m → x ∈ lsII m ∧ y ∈ lsJJ m := by
    intro x y h
    rw [← hzip] at h
    exact List.of_mem_zip h
  obtain ⟨j, j1, j2⟩ := ls_last m
  have hN : 0 < 4 ^ (m + 1) := by positivity
  have s1 : lsSize (lsII m) = 4 ^ (m + 1) := lsSize_eq (fun x hx => by obtain ⟨y, h⟩ := hI x hx; exact (hb _ h).1) hN (hpairI _ _ j1).1
  have s2 : lsSize (lsJJ m) = 4 ^ (m + 1) := lsSize_eq (fun x hx => by obtain ⟨y, h⟩ := hJ x hx; exact (hb _ h).2) hN (hpairI _ _ j2).2
  obtain ⟨g, g1, g2, g3, -⟩ := ofEdges_ok (N := 4 ^ (m + 1)) (l := (lsPairs m).map fun p => (p.1, p.2, 1)) (by
    intro e he
    obtain ⟨p, hp, rfl⟩ := List.mem_map.1 he
    exact hb p hp) hlt
  refine ⟨g, ?_, g2, fun i j => ?_⟩
  · unfold lowStretchTree
    rw [if_pos ⟨s1, s2⟩, hones]
    exact g1
  · rw [g3, weightAt_nodup (pairs_nodup _)]

end Gen

/-- **`LowStretchTree(k)` is a tree on the `2^k` by `2^k` grid if the directions and the self-loops of its edges are ignored**: the `4^k` vertices are
connected by `4^k - 1` pairs of different vertices.  It has `2 (4^k - 1)` unit weights in total. -/
theorem C77_structure {k : ℕ} (hk : 1 ≤ k) {lt : LapType} (hlt : lt = .combinatorial ∨ lt = .normalized) :
    ∃ g, lowStretchTree k lt = .ok g ∧ g.Built ∧ (∀ i j, g.W.dense i j = 0 ∨ g.W.dense i j = 1) ∧ (arcs g.W.dense).card = 2 * (4 ^ k - 1) ∧
      ∃ S : Matrix (Fin (4 ^ (k - 1 + 1))) (Fin (4 ^ (k - 1 + 1))) ℝ,
        (∀ i j, S i j ≠ 0 ↔ i ≠ j ∧ (g.W.dense i j ≠ 0 ∨ g.W.dense j i ≠ 0)) ∧ StronglyConnected S ∧ (edges S).card = 4 ^ k - 1 := by
  obtain ⟨g, g1, g2, g3⟩ := ls_ok k hlt
  have hkk : 4 ^ k = 4 ^ (k - 1 + 1) := by congr 1; omega
  have hne : ∀ i j, g.W.dense i j ≠ 0 ↔ (i.1, j.1) ∈ lsPairs (k - 1) := by
    intro i j; rw [g3]; split <;> simp_all
  refine ⟨g, g1, g2, fun i j => ?_, ?_, ?_⟩
  · rw [g3]; split
    · exact .inr rfl
    · exact .inl rfl
  · rw [card_arcs_list (pairs_nodup (k - 1)) (pairs_bound (k - 1)) hne, pairs_len, hkk]
  · classical
    let S : Matrix (Fin (4 ^ (k - 1 + 1))) (Fin (4 ^ (k - 1 + 1))) ℝ := Matrix.of fun i j => if (i.1, j.1) ∈ lsTree (k - 1) ∨ (j.1, i.1) ∈ lsTree (k - 1) then 1 else 0
    have hS : ∀ i j, S i j ≠ 0 ↔ (i.1, j.1) ∈ lsTree (k - 1) ∨ (j.1, i.1) ∈ lsTree (k - 1) := by
      intro i j
      simp only [S, Matrix.of_apply]
      split <;> simp_all
    have hu : Undirected S := by
      intro i j
      simp only [S, Matrix.of_apply]
      exact if_congr or_comm rfl rfl
    have hl : ∀ i, S i i = 0 := by
      intro i
      by_contra q
      rcases (hS i i).1 q with r | r <;> exact absurd (tree_lt _ _ _ r) (lt_irrefl _)
    refine ⟨S, fun i j => ?_, ?_, ?_⟩
    · rw [hS, hne, hne]
      constructor
      · rintro (h | h)
        · exact ⟨fun e => by have := tree_lt _ _ _ h; rw [e] at this; omega, .inl (tree_sub _ _ _ h)⟩
        · exact ⟨fun e => by have := tree_lt _ _ _ h; rw [e] at this; omega, .inr (tree_sub _ _ _ h)⟩
      · rintro ⟨hne', h | h⟩
        · exact (pairs_sub _ _ _ h).resolve_left fun e => hne' (Fin.ext e)
        · exact ((pairs_sub _ _ _ h).resolve_left fun e => hne' (Fin.ext e.symm)).symm
    · have key : ∀ (a b : ℕ) (h : Relation.ReflTransGen (lsRel (k - 1)) a b) (hb : b < 4 ^ (k - 1 + 1)), ∃ ha : a < 4 ^ (k - 1 + 1), Reach S ⟨a, ha⟩ ⟨b, hb⟩ := by
        intro a b h hb
        induction h using Relation.ReflTransGen.head_induction_on with
        | refl => exact ⟨hb, .refl⟩
        | head h1 _ ih =>
          obtain ⟨hc, hr⟩ := ih
          refine ⟨?_, ?_⟩
          · rcases h1 with h1 | h1
            · exact (tree_bound _ _ h1).1
            · exact (tree_bound _ _ h1).2
          · refine .head ?_ hr
            exact (hS _ _).2 h1
      have hN : 0 < 4 ^ (k - 1 + 1) := by positivity
      refine connected_from_zero hu hN fun v => reach_symm hu ?_
      exact (key v.1 0 (ls_connected _ v.1 v.2) hN).2
    · rw [edges_card hu hl, hkk, ← tree_len, ← List.toFinset_card_of_nodup (tree_nodup (k - 1))]
      refine Finset.card_bij (fun p _ => (p.1.1, p.2.1)) ?_ ?_ ?_
      · intro p hp
        obtain ⟨hp1, hp2⟩ := Finset.mem_filter.1 hp
        have := (hS p.1 p.2).1 (Finset.mem_filter.1 hp1).2
        refine List.mem_toFinset.2 (this.resolve_right fun q => ?_)
        have := tree_lt _ _ _ q
        have := Fin.lt_def.1 hp2
        omega
      · intro p _ q _ e
        simp only [Prod.mk.injEq] at e
        exact Prod.ext (Fin.ext e.1) (Fin.ext e.2)
      · intro p hp
        have hp := List.mem_toFinset.1 hp
        have hb := tree_bound _ p hp
        refine ⟨(⟨p.1, hb.1⟩, ⟨p.2, hb.2⟩), Finset.mem_filter.2 ⟨Finset.mem_filter.2 ⟨Finset.mem_univ _, (hS _ _).2 (.inl hp)⟩, ?_⟩, rfl⟩
        exact tree_lt _ _ _ hp

/-- **The vertices are placed on the grid, one at every point, and all edges connect neighbours on the grid.** -/
theorem C77_grid {k : ℕ} (hk : 1 ≤ k) {lt : LapType} {g : Graph (4 ^ (k - 1 + 1)) ℝ} (h : lowStretchTree k lt = .ok g) :
    (∀ v : Fin (4 ^ (k - 1 + 1)), 1 ≤ (lsCoords k v).1 ∧ (lsCoords k v).1 ≤ 2 ^ k ∧ 1 ≤ (lsCoords k v).2 ∧ (lsCoords k v).2 ≤ 2 ^ k) ∧
      (∀ x y, 1 ≤ x → x ≤ 2 ^ k → 1 ≤ y → y ≤ 2 ^ k → ∃! v : Fin (4 ^ (k - 1 + 1)), lsCoords k v = (x, y)) ∧
      ∀ i j, i ≠ j → g.W.dense i j ≠ 0 → ndist (lsCoords k i).1 (lsCoords k j).1 + ndist (lsCoords k i).2 (lsCoords k j).2 = 1 := by
  have hlt : lt = .combinatorial ∨ lt = .normalized := by
    unfold lowStretchTree ofEdges at h
    split at h
    · split at h
      · cases h
      · exact (Graph.ofCsr_ok h).2.2.2
    · cases h
  obtain ⟨g', g1, g2, g3⟩ := ls_ok k hlt
  obtain rfl := Except.ok.inj (g1.symm.trans h)
  have h2k : 2 ^ k = 2 ^ (k - 1 + 1) := by congr 1; omega
  have hc : ∀ v, lsCoords k v = lsXY (k - 1) v := fun v => rfl
  have hinj : Function.Injective fun v : Fin (4 ^ (k - 1 + 1)) => lsXY (k - 1) v := by
    have hcard : ∀ v : Fin (4 ^ (k - 1 + 1)), lsXY (k - 1) v ∈ Finset.Icc 1 (2 ^ (k - 1 + 1)) ×ˢ Finset.Icc 1 (2 ^ (k - 1 + 1)) := by
      intro v
      have := ls_range (k - 1) v.1 v.2
      simp only [Finset.mem_product, Finset.mem_Icc]
      exact ⟨⟨this.1, this.2.1⟩, this.2.2⟩
    have hsurj : Set.SurjOn (fun v : Fin (4 ^ (k - 1 + 1)) => lsXY (k - 1) v) (Finset.univ : Finset (Fin (4 ^ (k - 1 + 1))))
        (Finset.Icc 1 (2 ^ (k - 1 + 1)) ×ˢ Finset.Icc 1 (2 ^ (k - 1 + 1)) : Finset (ℕ × ℕ)) := by
      rintro ⟨x, y⟩ hxy
      simp only [Finset.coe_product, Finset.coe_Icc, Set.mem_prod, Set.mem_Icc] at hxy
      obtain ⟨v, hv, e⟩ := ls_surj (k - 1) x y hxy.1.1 hxy.1.2 hxy.2.1 hxy.2.2
      exact ⟨⟨v, hv⟩, Finset.mem_coe.2 (Finset.mem_univ _), e⟩
    have hle : (Finset.univ : Finset (Fin (4 ^ (k - 1 + 1)))).card ≤ (Finset.Icc 1 (2 ^ (k - 1 + 1)) ×ˢ Finset.Icc 1 (2 ^ (k - 1 + 1)) : Finset (ℕ × ℕ)).card := by
      rw [Finset.card_product, Finset.card_univ, Fintype.card_fin, Nat.card_Icc, Nat.add_sub_cancel, ← mul_pow]
      norm_num
    have := Finset.injOn_of_surjOn_of_card_le _ (fun v _ => hcard v) hsurj hle
    intro a b e
    exact this (Finset.mem_coe.2 (Finset.mem_univ _)) (Finset.mem_coe.2 (Finset.mem_univ _)) e
  refine ⟨fun v => ?_, fun x y a1 a2 a3 a4 => ?_, fun i j hij hw => ?_⟩
  · rw [h2k, hc]; exact ls_range (k - 1) v.1 v.2
  · rw [h2k] at a2 a4
    obtain ⟨v, hv, e⟩ := ls_surj (k - 1) x y a1 a2 a3 a4
    exact ⟨⟨v, hv⟩, e, fun w hw => hinj (hw.trans e.symm)⟩
  · rw [hc, hc]
    have hmem : (i.1, j.1) ∈ lsPairs (k - 1) := by
      by_contra q
      exact hw (by rw [g3, if_neg q])
    rcases pairs_sub _ _ _ hmem with e | e | e
    · exact absurd (Fin.ext e) hij
    · exact ls_neighbours _ _ _ e
    · have := ls_neighbours _ _ _ e
      unfold ndist at *
      omega

/-- **`LowStretchTree` is not a tree**: in every group of four vertices `4b, ..., 4b + 3`, the edge between `4b` and `4b + 1` goes one way only and its
other direction is a self-loop of `4b + 1`; the graph is directed and `is_connected` answers False. -/
theorem C77_tree_violated {k : ℕ} (hk : 1 ≤ k) {lt : LapType} {g : Graph (4 ^ (k - 1 + 1)) ℝ} (h : lowStretchTree k lt = .ok g)
    (pop : Pop (4 ^ (k - 1 + 1))) :
    (∀ (b : ℕ) (u v : Fin (4 ^ (k - 1 + 1))), u.1 = 4 * b → v.1 = 4 * b + 1 → g.W.dense u v = 1 ∧ g.W.dense v u = 0 ∧ g.W.dense v v = 1) ∧
      ¬ Undirected g.W.dense ∧ hasLoops g.W = true ∧ isConnected pop g.W = .ok false := by
  have hlt : lt = .combinatorial ∨ lt = .normalized := by
    unfold lowStretchTree ofEdges at h
    split at h
    · split at h
      · cases h
      · exact (Graph.ofCsr_ok h).2.2.2
    · cases h
  obtain ⟨g', g1, g2, g3⟩ := ls_ok k hlt
  obtain rfl := Except.ok.inj (g1.symm.trans h)
  have hN : 4 ≤ 4 ^ (k - 1 + 1) := by
    have := Nat.pow_le_pow_right (show 0 < 4 by norm_num) (show 1 ≤ k - 1 + 1 by omega)
    simpa using this
  have hfour : ∀ (b : ℕ) (u v : Fin (4 ^ (k - 1 + 1))), u.1 = 4 * b → v.1 = 4 * b + 1 → g'.W.dense u v = 1 ∧ g'.W.dense v u = 0 ∧ g'.W.dense v v = 1 := by
    intro b u v e1 e2
    have hb : b < 4 ^ (k - 1) := by
      have h1 := v.2
      have h2 : 4 ^ (k - 1 + 1) = 4 ^ (k - 1) * 4 := pow_succ _ _
      omega
    obtain ⟨p1, p2, p3⟩ := pairs_four (k - 1) b hb
    rw [g3, g3, g3, e1, e2]
    exact ⟨if_pos p1, if_neg p2, if_pos p3⟩
  have h01 := hfour 0 ⟨0, by omega⟩ ⟨1, by omega⟩ rfl rfl
  refine ⟨hfour, fun hu => ?_, ?_, ?_⟩
  · have := hu ⟨0, by omega⟩ ⟨1, by omega⟩
    rw [h01.1, h01.2.1] at this
    norm_num at this
  · rw [C06_has_loops_iff]
    exact ⟨⟨1, by omega⟩, by rw [h01.2.2]; norm_num⟩
  · obtain ⟨b, hb1, hb2⟩ := C05_is_connected_iff g' g2 (by omega) pop
    rw [hb1]
    congr 1
    by_contra hb
    have hb : b = true := by simpa using hb
    have hsc := hb2.1 hb
    have : ∀ w, Reach g'.W.dense ⟨1, by omega⟩ w → w.1 = 1 := by
      intro w hw
      induction hw with
      | refl => rfl
      | @tail x y _ hxy ih =>
        have hm : (x.1, y.1) ∈ lsPairs (k - 1) := by
          by_contra q
          exact hxy (by rw [g3, if_neg q])
        rw [ih] at hm
        exact pairs_from_one _ _ hm
    have := this ⟨0, by omega⟩ (hsc _ _)
    simp at this

example : ∃ g, lowStretchTree 6 .combinatorial = .ok g ∧ (arcs g.W.dense).card = 8190 := by
  obtain ⟨g, h1, -, -, h2, -⟩ := C77_structure (k := 6) (by norm_num) (.inl rfl)
  exact ⟨g, h1, by rw [h2]; norm_num⟩

end PyGSP
