import Verif.Model.Generators
import Verif.Props.Kron

/-!
# Lemmas about the generators
-/

namespace PyGSP

open Matrix Spec

variable {n : ℕ}

/-- a canonical sparse matrix of numbers is accepted by the constructor -/
theorem Graph.ofCsr_canonical {K : Type*} [Field K] [LinearOrder K] (W : Sp n n K) (_ : W.Canonical) {lt : LapType}
    (hlt : lt = .combinatorial ∨ lt = .normalized) :
    ∃ g : Graph n K, Graph.ofCsr W lt = .ok g ∧ g.Built ∧ g.W.dense = W.dense ∧ g.lapType = lt := by
  obtain ⟨g, hg⟩ : ∃ g, Graph.ofCsr W lt = .ok g := by
    rcases hlt with rfl | rfl <;> exact ⟨_, rfl⟩
  let A : Sp n n (PyNum K) := ⟨W.entries.map fun e => (e.1, e.2.1, .fin e.2.2)⟩
  have hA : A.toFin = W := by
    simp [A, Sp.toFin, List.map_map, Function.comp_def, PyNum.toFin]
  have hd : ∀ x ∈ A.data, x.IsFinite := by
    intro x hx
    simp only [A, Sp.data, List.map_map, List.mem_map, Function.comp] at hx
    obtain ⟨e, _, rfl⟩ := hx
    trivial
  obtain ⟨h1, -, h3, -⟩ := Graph.ofCsr_ok hg
  refine ⟨g, hg, ⟨.csr n n A, lt, ?_⟩, ?_, h3⟩
  · rw [Graph.init_eq]
    simp only [AdjInput.toCsr, dite_true]
    rw [if_pos hd, hA, hg]
    rfl
  · ext i j
    rw [h1, Sp.dense_eliminateZeros, Sp.dense_sumDuplicates]

namespace Gen

/-- the total weight a list of weighted edges gives to a position -/
def weightAt (l : List (ℕ × ℕ × ℝ)) (i j : ℕ) : ℝ := (l.map fun e => if e.1 = i ∧ e.2.1 = j then e.2.2 else 0).sum

theorem weightAt_append (l l' : List (ℕ × ℕ × ℝ)) (i j : ℕ) : weightAt (l ++ l') i j = weightAt l i j + weightAt l' i j := by
  simp [weightAt]

@[simp] theorem weightAt_nil (i j : ℕ) : weightAt [] i j = 0 := rfl

theorem sum_range_map (m : ℕ) (f : ℕ → ℝ) : ((List.range m).map f).sum = ∑ k ∈ Finset.range m, f k := by
  induction m with
  | zero => simp
  | succ m ih => rw [List.range_succ, List.map_append, List.sum_append, ih, Finset.sum_range_succ]; simp

theorem weightAt_flatMap (m : ℕ) (f : ℕ → List (ℕ × ℕ × ℝ)) (i j : ℕ) :
    weightAt ((List.range m).flatMap f) i j = ∑ k ∈ Finset.range m, weightAt (f k) i j := by
  rw [← sum_range_map]
  unfold weightAt
  generalize List.range m = l
  induction l with
  | nil => rfl
  | cons a l ih => rw [List.flatMap_cons, List.map_append, List.sum_append, ih]; simp

theorem ones_append {s s' t t' : List ℕ} (h : s.length = t.length) : ones (s ++ s') (t ++ t') = ones s t ++ ones s' t' := by
  unfold ones
  rw [List.zip_append h, List.map_append]

/-- unit weights along a counter -/
theorem weightAt_ones (m : ℕ) (f g : ℕ → ℕ) (i j : ℕ) :
    weightAt (ones ((List.range m).map f) ((List.range m).map g)) i j = ∑ p ∈ Finset.range m, if f p = i ∧ g p = j then 1 else 0 := by
  rw [← sum_range_map]
  unfold weightAt ones
  rw [List.zip_map', List.map_map, List.map_map]
  rfl

theorem range'_eq_map (a m : ℕ) : List.range' a m = (List.range m).map (a + ·) := by
  rw [List.range_eq_range', List.map_add_range', Nat.add_zero]

/-- a sum of indicators with at most one hit -/
theorem sum_unique (m : ℕ) (P : ℕ → Prop) [DecidablePred P] (h : ∀ p < m, ∀ q < m, P p → P q → p = q) :
    (∑ p ∈ Finset.range m, if P p then (1 : ℝ) else 0) = if ∃ p < m, P p then 1 else 0 := by
  split
  · rename_i hex
    obtain ⟨p, hp, hP⟩ := hex
    rw [Finset.sum_eq_single p]
    · rw [if_pos hP]
    · intro q hq hne
      rw [if_neg fun hQ => hne (h q (Finset.mem_range.1 hq) p hp hQ hP)]
    · intro hn
      exact absurd (Finset.mem_range.2 hp) hn
  · rename_i hex
    refine Finset.sum_eq_zero fun p hp => if_neg fun hP => hex ⟨p, Finset.mem_range.1 hp, hP⟩

theorem coo_ok {N : ℕ} {l : List (ℕ × ℕ × ℝ)} (h : ∀ e ∈ l, e.1 < N ∧ e.2.1 < N) :
    ∃ W, coo N l = .ok W ∧ W.Canonical ∧ ∀ i j, W.dense i j = weightAt l i.1 j.1 := by
  refine ⟨_, dif_pos h, Sp.canonical_sumDuplicates _, fun i j => ?_⟩
  rw [Sp.dense_sumDuplicates]
  unfold Sp.dense weightAt
  simp only
  rw [List.filter_map, List.map_map]
  have : ∀ l' : List { e // e ∈ l },
      ((List.filter ((fun e : Fin N × Fin N × ℝ => decide (e.1 = i ∧ e.2.1 = j)) ∘
        fun e : { e // e ∈ l } => ((⟨e.1.1, (h e.1 e.2).1⟩ : Fin N), (⟨e.1.2.1, (h e.1 e.2).2⟩ : Fin N), e.1.2.2)) l').map
        ((fun e : Fin N × Fin N × ℝ => e.2.2) ∘
          fun e : { e // e ∈ l } => ((⟨e.1.1, (h e.1 e.2).1⟩ : Fin N), (⟨e.1.2.1, (h e.1 e.2).2⟩ : Fin N), e.1.2.2))).sum =
      (l'.map fun e => if e.1.1 = i.1 ∧ e.1.2.1 = j.1 then e.1.2.2 else 0).sum := by
    intro l'
    induction l' with
    | nil => rfl
    | cons a l' ih =>
      rw [List.filter_cons]
      by_cases ha : a.1.1 = i.1 ∧ a.1.2.1 = j.1
      · rw [if_pos (by simp [Fin.ext_iff, ha]), List.map_cons, List.sum_cons, List.map_cons, List.sum_cons, ih, if_pos ha]
        rfl
      · rw [if_neg (by simpa [Fin.ext_iff] using ha), List.map_cons, List.sum_cons, ih, if_neg ha, zero_add]
  rw [this]
  conv_rhs => rw [← List.attach_map_subtype_val l, List.map_map]
  rfl

theorem ofEdges_ok {N : ℕ} {l : List (ℕ × ℕ × ℝ)} (h : ∀ e ∈ l, e.1 < N ∧ e.2.1 < N) {lt : LapType}
    (hlt : lt = .combinatorial ∨ lt = .normalized) :
    ∃ g, ofEdges N l lt = .ok g ∧ g.Built ∧ (∀ i j, g.W.dense i j = weightAt l i.1 j.1) ∧ g.lapType = lt := by
  obtain ⟨W, h1, h2, h3⟩ := coo_ok h
  obtain ⟨g, g1, g2, g3, g4⟩ := Graph.ofCsr_canonical W h2 hlt
  refine ⟨g, ?_, g2, fun i j => by rw [g3, h3], g4⟩
  unfold ofEdges
  rw [h1]
  exact g1

theorem ofEdges_unknown {N : ℕ} {l : List (ℕ × ℕ × ℝ)} (h : ∀ e ∈ l, e.1 < N ∧ e.2.1 < N) (name : String) :
    ofEdges N l (.other name) = .error .valueError := by
  obtain ⟨W, h1, -⟩ := coo_ok h
  unfold ofEdges
  rw [h1]
  rfl

theorem mem_ones {s t : List ℕ} {e : ℕ × ℕ × ℝ} (h : e ∈ ones s t) : e.1 ∈ s ∧ e.2.1 ∈ t := by
  unfold ones at h
  rw [List.mem_map] at h
  obtain ⟨p, hp, rfl⟩ := h
  exact ⟨(List.of_mem_zip hp).1, (List.of_mem_zip hp).2⟩

theorem add_mod_eq {N a b : ℕ} (ha : a < N) (hb : b ≤ N) : (a + b) % N = if a + b < N then a + b else a + b - N := by
  split
  · exact Nat.mod_eq_of_lt (by assumption)
  · rw [Nat.mod_eq_sub_mod (by omega), Nat.mod_eq_of_lt (by omega)]

/-- counting the edges of an undirected graph without loops -/
theorem edges_card {K : Type*} [Zero K] [DecidableEq K] {M : Matrix (Fin n) (Fin n) K} (hu : Undirected M) (hl : ∀ i, M i i = 0) :
    (edges M).card = ((arcs M).filter fun p => p.1 < p.2).card := by
  refine (Finset.card_bij (fun p _ => s(p.1, p.2)) ?_ ?_ ?_).symm
  · intro p hp
    exact Finset.mem_image.2 ⟨p, (Finset.mem_filter.1 hp).1, rfl⟩
  · rintro ⟨a, b⟩ hp ⟨c, d⟩ hq h
    have h1 := (Finset.mem_filter.1 hp).2
    have h2 := (Finset.mem_filter.1 hq).2
    simp only at h1 h2 h
    rcases Sym2.eq_iff.1 h with ⟨rfl, rfl⟩ | ⟨rfl, rfl⟩
    · rfl
    · exact absurd h1 (not_lt.2 h2.le)
  · intro e he
    obtain ⟨⟨a, b⟩, hp, rfl⟩ := Finset.mem_image.1 he
    have hab := (Finset.mem_filter.1 hp).2
    simp only at hab
    have hne : a ≠ b := by
      rintro rfl
      exact hab (hl a)
    rcases lt_or_gt_of_ne hne with h | h
    · exact ⟨(a, b), Finset.mem_filter.2 ⟨hp, h⟩, rfl⟩
    · refine ⟨(b, a), Finset.mem_filter.2 ⟨Finset.mem_filter.2 ⟨Finset.mem_univ _, ?_⟩, h⟩, Sym2.eq_swap⟩
      simp only
      rw [hu b a]; exact hab

/-- twice the number of edges is the sum of the degrees -/
theorem two_edges_card {K : Type*} [Zero K] [DecidableEq K] {M : Matrix (Fin n) (Fin n) K} (hu : Undirected M)
    (hl : ∀ i, M i i = 0) : 2 * (edges M).card = ∑ i, (Finset.univ.filter fun j => M i j ≠ 0).card := by
  have h1 : ((arcs M).filter fun p => p.1 < p.2).card = ((arcs M).filter fun p => ¬ p.1 < p.2).card := by
    refine Finset.card_bij (fun p _ => (p.2, p.1)) ?_ ?_ ?_
    · intro p hp
      have := (Finset.mem_filter.1 hp)
      refine Finset.mem_filter.2 ⟨Finset.mem_filter.2 ⟨Finset.mem_univ _, ?_⟩, not_lt.2 this.2.le⟩
      simp only
      rw [hu]; exact (Finset.mem_filter.1 this.1).2
    · rintro ⟨a, b⟩ - ⟨c, d⟩ - h
      simp only [Prod.mk.injEq] at h
      rw [h.1, h.2]
    · rintro ⟨a, b⟩ hp
      obtain ⟨q1, q2⟩ := Finset.mem_filter.1 hp
      have q3 := (Finset.mem_filter.1 q1).2
      simp only at q2 q3
      have hne : a ≠ b := by rintro rfl; exact q3 (hl a)
      refine ⟨(b, a), Finset.mem_filter.2 ⟨Finset.mem_filter.2 ⟨Finset.mem_univ _, ?_⟩, ?_⟩, rfl⟩
      · simp only; rw [hu]; exact q3
      · exact lt_of_le_of_ne (not_lt.1 q2) hne.symm
  have h2 : (arcs M).card = ∑ i, (Finset.univ.filter fun j => M i j ≠ 0).card := by
    unfold arcs
    rw [Finset.card_filter, ← Finset.univ_product_univ, Finset.sum_product]
    exact Finset.sum_congr rfl fun i _ => (Finset.card_filter ..).symm
  rw [edges_card hu hl, ← h2, ← Finset.card_filter_add_card_filter_not (s := arcs M) (fun p => p.1 < p.2), ← h1]
  ring

end Gen

end PyGSP
