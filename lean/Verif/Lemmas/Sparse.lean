import Verif.Model.Sparse
import Verif.Model.Graph
import Verif.Spec.Graph
import Mathlib.Algebra.BigOperators.Group.Finset.Basic
import Mathlib.Data.Finset.Sort
import Mathlib.Tactic

namespace PyGSP
namespace Sp

variable {n m : ℕ} {K : Type*}

/-- the sum of the values stored at a position -/
theorem dense_def [AddMonoid K] (A : Sp n m K) (i j) :
    A.dense i j = ((A.entries.filter (fun e => e.1 = i ∧ e.2.1 = j)).map (fun e => e.2.2)).sum := rfl

theorem dense_transpose [AddMonoid K] (A : Sp n m K) (i j) : A.transpose.dense i j = A.dense j i := by
  simp only [dense, transpose, List.filter_map, List.map_map]
  congr 2
  apply List.filter_congr
  intro e _
  simp [and_comm]

@[simp] theorem dense_nil [AddMonoid K] (i j) : (⟨[]⟩ : Sp n m K).dense i j = 0 := rfl

theorem dense_cons [AddMonoid K] (e : Fin n × Fin m × K) (es) (i j) :
    (⟨e :: es⟩ : Sp n m K).dense i j
      = (if e.1 = i ∧ e.2.1 = j then e.2.2 else 0) + (⟨es⟩ : Sp n m K).dense i j := by
  unfold dense
  rw [List.filter_cons]
  split
  · rename_i h
    rw [if_pos (by simpa using h)]
    simp
  · rename_i h
    rw [if_neg (by simpa using h)]
    simp

theorem dense_append [AddMonoid K] (es fs : List (Fin n × Fin m × K)) (i j) :
    (⟨es ++ fs⟩ : Sp n m K).dense i j = (⟨es⟩ : Sp n m K).dense i j + (⟨fs⟩ : Sp n m K).dense i j := by
  unfold dense
  rw [List.filter_append, List.map_append, List.sum_append]

theorem dense_eliminateZeros [AddMonoid K] [DecidableEq K] (A : Sp n m K) (i j) :
    A.eliminateZeros.dense i j = A.dense i j := by
  obtain ⟨es⟩ := A
  unfold eliminateZeros
  simp only
  induction es with
  | nil => rfl
  | cons e es ih =>
    rw [dense_cons, List.filter_cons]
    split
    · rw [dense_cons, ih]
    · rename_i h
      have h : e.2.2 = 0 := by simpa using h
      rw [ih, h]; simp

theorem Canonical.eliminateZeros [Zero K] [DecidableEq K] {A : Sp n m K} (h : A.Canonical) :
    A.eliminateZeros.Canonical := by
  unfold Canonical keys Sp.eliminateZeros at *
  exact List.Nodup.sublist (List.Sublist.map _ List.filter_sublist) h

theorem dense_of_mem [AddMonoid K] {A : Sp n m K} (h : A.Canonical) {i j v}
    (hm : (i, j, v) ∈ A.entries) : A.dense i j = v := by
  obtain ⟨entries⟩ := A
  unfold Canonical keys at h
  unfold dense
  simp only at h hm ⊢
  induction entries with
  | nil => simp at hm
  | cons e es ih =>
    rw [List.map_cons, List.nodup_cons] at h
    rcases List.mem_cons.1 hm with rfl | hm'
    · have : es.filter (fun e => e.1 = i ∧ e.2.1 = j) = [] := by
        rw [List.filter_eq_nil_iff]
        intro e he hc
        simp only [decide_eq_true_eq] at hc
        apply h.1
        rw [List.mem_map]
        exact ⟨e, he, by simp [hc.1, hc.2]⟩
      rw [List.filter_cons, this]; simp
    · have hne : ¬ (e.1 = i ∧ e.2.1 = j) := by
        rintro ⟨rfl, rfl⟩
        apply h.1
        rw [List.mem_map]
        exact ⟨_, hm', rfl⟩
      rw [List.filter_cons, if_neg (by simpa using hne)]
      exact ih h.2 hm'

theorem exists_mem_of_dense_ne [AddMonoid K] {A : Sp n m K} {i j} (hd : A.dense i j ≠ 0) :
    ∃ v, (i, j, v) ∈ A.entries := by
  unfold dense at hd
  by_contra hc
  push Not at hc
  apply hd
  have : A.entries.filter (fun e => e.1 = i ∧ e.2.1 = j) = [] := by
    rw [List.filter_eq_nil_iff]
    intro e he h
    simp only [decide_eq_true_eq] at h
    obtain ⟨rfl, rfl⟩ := h
    exact hc _ he
  rw [this]; rfl

/-- no explicit zero is stored -/
def Clean [Zero K] (A : Sp n m K) : Prop := ∀ e ∈ A.entries, e.2.2 ≠ 0

theorem clean_eliminateZeros [Zero K] [DecidableEq K] (A : Sp n m K) : A.eliminateZeros.Clean := by
  intro e he
  simp [Sp.eliminateZeros] at he
  exact he.2

theorem mem_entries_iff [AddMonoid K] {A : Sp n m K} (h : A.Canonical) (hc : A.Clean) {i j v} :
    (i, j, v) ∈ A.entries ↔ v ≠ 0 ∧ A.dense i j = v := by
  constructor
  · intro hm
    exact ⟨hc _ hm, dense_of_mem h hm⟩
  · rintro ⟨hv, rfl⟩
    obtain ⟨v, hm⟩ := exists_mem_of_dense_ne hv
    rw [dense_of_mem h hm]
    exact hm

theorem nodup_entries {A : Sp n m K} (h : A.Canonical) : A.entries.Nodup := by
  unfold Canonical keys at h
  exact List.Nodup.of_map _ h

theorem mem_keys_iff [AddMonoid K] {A : Sp n m K} (h : A.Canonical) (hc : A.Clean) {p : Fin n × Fin m} :
    p ∈ A.keys ↔ A.dense p.1 p.2 ≠ 0 := by
  unfold keys
  rw [List.mem_map]
  constructor
  · rintro ⟨⟨i, j, v⟩, he, rfl⟩
    have := (mem_entries_iff h hc).1 he
    simp only
    rw [this.2]; exact this.1
  · intro hd
    exact ⟨(p.1, p.2, A.dense p.1 p.2), (mem_entries_iff h hc).2 ⟨hd, rfl⟩, rfl⟩

/-- counting stored entries satisfying a predicate on positions = counting positions -/
theorem length_filter_eq_card [AddMonoid K] [DecidableEq K] {A : Sp n m K} (h : A.Canonical) (hc : A.Clean)
    (P : Fin n × Fin m → Prop) [DecidablePred P] :
    (A.entries.filter (fun e => P (e.1, e.2.1))).length
      = (Finset.univ.filter (fun p : Fin n × Fin m => P p ∧ A.dense p.1 p.2 ≠ 0)).card := by
  have h1 : (A.entries.filter (fun e => P (e.1, e.2.1))).length = (A.keys.filter (fun p => P p)).length := by
    simp [keys, List.filter_map, Function.comp_def]
  rw [h1]
  have h2 : (A.keys.filter (fun p => P p)).Nodup := List.Nodup.filter _ h
  rw [← List.toFinset_card_of_nodup h2]
  congr 1
  ext p
  simp only [List.mem_toFinset, List.mem_filter, Finset.mem_filter, Finset.mem_univ, true_and,
    decide_eq_true_eq]
  rw [mem_keys_iff h hc]
  tauto

theorem nnz_eq_card [AddMonoid K] [DecidableEq K] {A : Sp n n K} (h : A.Canonical) (hc : A.Clean) :
    A.nnz = (Spec.arcs A.dense).card := by
  have := length_filter_eq_card h hc (fun _ => True)
  simpa [nnz, Spec.arcs] using this

theorem neNnz_ne_zero_iff [AddMonoid K] [DecidableEq K] (A B : Sp n m K) :
    A.neNnz B ≠ 0 ↔ ∃ i j, A.dense i j ≠ B.dense i j := by
  unfold neNnz
  rw [← Nat.pos_iff_ne_zero, List.length_pos_iff_exists_mem]
  constructor
  · rintro ⟨⟨i, j⟩, h⟩
    simp only [List.mem_flatMap, List.mem_filterMap] at h
    obtain ⟨a, _, b, _, hab⟩ := h
    split at hab
    · exact ⟨a, b, by assumption⟩
    · simp at hab
  · rintro ⟨i, j, h⟩
    refine ⟨(i, j), ?_⟩
    simp only [List.mem_flatMap, List.mem_filterMap]
    exact ⟨i, List.mem_finRange _, j, List.mem_finRange _, by simp [h]⟩

theorem mem_ofDense [Zero K] [DecidableEq K] (M : Matrix (Fin n) (Fin m) K) (i j v) :
    (i, j, v) ∈ (ofDense M).entries ↔ M i j ≠ 0 ∧ M i j = v := by
  simp only [ofDense, List.mem_flatMap, List.mem_filterMap, List.mem_finRange, true_and]
  constructor
  · rintro ⟨a, b, h⟩
    split at h
    · simp only [Option.some.injEq, Prod.mk.injEq] at h
      obtain ⟨rfl, rfl, rfl⟩ := h
      exact ⟨by assumption, rfl⟩
    · simp at h
  · rintro ⟨h, rfl⟩
    exact ⟨i, j, by simp [h]⟩

/-- keys of row-major listings are pairwise distinct -/
theorem nodup_rowmajor {α : Type*} (f : Fin n → Fin m → Option α) (key : α → Fin n × Fin m)
    (hk : ∀ i j a, f i j = some a → key a = (i, j)) :
    (((List.finRange n).flatMap fun i => (List.finRange m).filterMap fun j => f i j).map key).Nodup := by
  rw [List.map_flatMap]
  rw [List.nodup_flatMap]
  constructor
  · intro i _
    rw [List.map_filterMap]
    apply List.Nodup.filterMap _ (List.nodup_finRange m)
    intro a b c ha hb
    simp only [Option.mem_def, Option.map_eq_some_iff] at ha hb
    obtain ⟨x, hx, rfl⟩ := ha
    obtain ⟨y, hy, hxy⟩ := hb
    rw [hk _ _ _ hx, hk _ _ _ hy] at hxy
    exact (Prod.mk.inj hxy).2.symm
  · apply List.Nodup.pairwise_of_forall_ne (List.nodup_finRange n)
    intro a _ b _ hab
    rw [Function.onFun, List.disjoint_left]
    intro x hx hy
    simp only [List.mem_map, List.mem_filterMap] at hx hy
    obtain ⟨u, ⟨j, _, hu⟩, rfl⟩ := hx
    obtain ⟨v, ⟨j', _, hv⟩, hvx⟩ := hy
    rw [hk _ _ _ hu, hk _ _ _ hv] at hvx
    exact hab (Prod.mk.inj hvx).1.symm

theorem canonical_ofDense [Zero K] [DecidableEq K] (M : Matrix (Fin n) (Fin m) K) :
    (ofDense M).Canonical := by
  unfold Canonical keys ofDense
  apply nodup_rowmajor (fun i j => if M i j ≠ 0 then some (i, j, M i j) else none) (fun e => (e.1, e.2.1))
  intro i j a h
  split at h
  · simp at h; subst h; rfl
  · simp at h

theorem clean_ofDense [Zero K] [DecidableEq K] (M : Matrix (Fin n) (Fin m) K) : (ofDense M).Clean := by
  rintro ⟨i, j, v⟩ h
  rw [mem_ofDense] at h
  simp only
  rw [← h.2]; exact h.1

@[simp] theorem dense_ofDense [AddMonoid K] [DecidableEq K] (M : Matrix (Fin n) (Fin m) K) :
    (ofDense M).dense = M := by
  ext i j
  by_cases h : M i j = 0
  · by_contra hc
    rw [h] at hc
    obtain ⟨v, hv⟩ := exists_mem_of_dense_ne hc
    rw [mem_ofDense] at hv
    exact hv.1 h
  · exact dense_of_mem (canonical_ofDense M) ((mem_ofDense M i j _).2 ⟨h, rfl⟩)

end Sp

theorem isDirected_iff {n : ℕ} {K : Type*} [AddMonoid K] [DecidableEq K] (W : Sp n n K) :
    isDirected W = true ↔ ∃ i j, W.dense i j ≠ W.dense j i := by
  unfold isDirected
  simp only [ne_eq, decide_not, Bool.not_eq_true', decide_eq_false_iff_not]
  rw [← ne_eq, Sp.neNnz_ne_zero_iff]
  simp [Sp.dense_transpose]

theorem isDirected_eq_false_iff {n : ℕ} {K : Type*} [AddMonoid K] [DecidableEq K] (W : Sp n n K) :
    isDirected W = false ↔ Spec.Undirected W.dense := by
  rw [← Bool.not_eq_true, isDirected_iff]
  simp [Spec.Undirected]

end PyGSP
