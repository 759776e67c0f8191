import Verif.Model.Community
import Verif.Props.Barabasi
import Mathlib.Data.Sym.Sym2
import Mathlib.Data.List.GetD

/-!
# Lemmas for `Community`
-/

namespace PyGSP.Gen

open Matrix Classical Spec

/-! ## Graphs of pairs -/

/-- the unordered pair -/
abbrev key (p : ℕ × ℕ) : Sym2 ℕ := s(p.1, p.2)

theorem weightAt_ones_zip (l : List (ℕ × ℕ)) (i j : ℕ) :
    weightAt (ones (l.map (·.1)) (l.map (·.2))) i j = (l.count (i, j) : ℕ) := by
  induction l with
  | nil => simp [ones]
  | cons p l ih =>
    have : ones ((p :: l).map (·.1)) ((p :: l).map (·.2)) = [(p.1, p.2, (1 : ℝ))] ++ ones (l.map (·.1)) (l.map (·.2)) := rfl
    rw [this, weightAt_append, ih, List.count_cons]
    simp only [weightAt, List.map_cons, List.map_nil, List.sum_cons, List.sum_nil, add_zero]
    by_cases h : p = (i, j)
    · subst h; simp [add_comm]
    · have : ¬ (p.1 = i ∧ p.2 = j) := fun hh => h (Prod.ext hh.1 hh.2)
      rw [if_neg this]
      simp [h]

theorem bothWays_weight {P : List (ℕ × ℕ)} (hne : ∀ p ∈ P, p.1 ≠ p.2) (hnd : (P.map key).Nodup) (i j : ℕ) :
    weightAt (bothWays P) i j = if s(i, j) ∈ P.map key then 1 else 0 := by
  unfold bothWays
  rw [ones_append (by simp), weightAt_append, weightAt_ones_zip]
  have hsw : ones (P.map (·.2)) (P.map (·.1)) = ones ((P.map Prod.swap).map (·.1)) ((P.map Prod.swap).map (·.2)) := by
    rw [List.map_map, List.map_map]; rfl
  rw [hsw, weightAt_ones_zip]
  have hc : (P.map Prod.swap).count (i, j) = P.count (j, i) := by
    have := List.count_map_of_injective P Prod.swap Prod.swap_injective (j, i)
    simpa using this
  rw [hc]
  induction P with
  | nil => simp
  | cons p P ih =>
    have hnd' := List.nodup_cons.1 (by simpa using hnd : ((key p) :: P.map key).Nodup)
    have ih' := ih (fun q hq => hne q (List.mem_cons_of_mem _ hq)) hnd'.2 (by rw [List.map_map, List.map_map]; rfl) (by
      have := List.count_map_of_injective P Prod.swap Prod.swap_injective (j, i)
      simpa using this)
    rw [List.count_cons, List.count_cons]
    push_cast
    have hp := hne p List.mem_cons_self
    by_cases h1 : p = (i, j)
    · have h2 : p ≠ (j, i) := by
        intro h2
        rw [h1] at h2
        have := congrArg Prod.fst h2
        simp only at this
        rw [h1] at hp
        exact hp (by simpa using this)
      have h3 : s(i, j) ∉ P.map key := by
        intro hh; apply hnd'.1; rw [h1]; exact hh
      rw [if_neg h3] at ih'
      have h4 : s(i, j) ∈ (p :: P).map key := by simp [h1]
      rw [if_pos h4]
      have e1 : (p == (i, j)) = true := by simp [h1]
      have e2 : (p == (j, i)) = false := by simp [h2]
      simp only [e1, e2]
      norm_num
      linarith
    · by_cases h2 : p = (j, i)
      · have h3 : s(i, j) ∉ P.map key := by
          intro hh; apply hnd'.1; rw [h2]; rw [Sym2.eq_swap] at hh; exact hh
        rw [if_neg h3] at ih'
        have h4 : s(i, j) ∈ (p :: P).map key := by simp [h2, Sym2.eq_swap]
        rw [if_pos h4]
        have e1 : (p == (i, j)) = false := by simp [h1]
        have e2 : (p == (j, i)) = true := by simp [h2]
        simp only [e1, e2]
        norm_num
        linarith
      · have e1 : (p == (i, j)) = false := by simp [h1]
        have e2 : (p == (j, i)) = false := by simp [h2]
        have h5 : key p ≠ s(i, j) := by
          intro hh
          rcases Sym2.eq_iff.1 hh with h | h
          · exact h1 (Prod.ext h.1 h.2)
          · exact h2 (Prod.ext h.1 h.2)
        have h6 : (s(i, j) ∈ (p :: P).map key) ↔ s(i, j) ∈ P.map key := by
          rw [List.map_cons, List.mem_cons]
          exact ⟨fun h => h.resolve_left fun hh => h5 hh.symm, Or.inr⟩
        simp only [e1, e2, h6]
        rw [← ih']
        simp

/-- counting the edges of a graph given by its unordered pairs -/
theorem card_edges_filter {N : ℕ} {W : Matrix (Fin N) (Fin N) ℝ} {Q : List (Sym2 ℕ)} (hQ : Q.Nodup) (hlt : ∀ e ∈ Q, ∀ v ∈ e, v < N)
    (hW : ∀ i j, W i j = if s(i.1, j.1) ∈ Q then 1 else 0) (p : Sym2 (Fin N) → Prop) [DecidablePred p] (p' : Sym2 ℕ → Prop)
    (hp : ∀ e, p e ↔ p' (e.map Fin.val)) : ((edges W).filter p).card = Q.countP fun e => decide (p' e) := by
  have hmem : ∀ i j : Fin N, s(i, j) ∈ edges W ↔ s(i.1, j.1) ∈ Q := by
    intro i j
    unfold edges arcs
    simp only [Finset.mem_image, Finset.mem_filter, Finset.mem_univ, true_and, Prod.exists]
    constructor
    · rintro ⟨a, b, h1, h2⟩
      rw [hW] at h1
      have h3 : s(a.1, b.1) ∈ Q := by by_contra hh; rw [if_neg hh] at h1; exact h1 rfl
      have : s(a.1, b.1) = s(i.1, j.1) := by
        have := congrArg (Sym2.map Fin.val) h2
        simpa using this
      rwa [← this]
    · intro h
      refine ⟨i, j, ?_, rfl⟩
      rw [hW, if_pos h]
      exact one_ne_zero
  have hm : ((edges W).filter p).map ⟨Sym2.map Fin.val, Sym2.map.injective Fin.val_injective⟩ = Q.toFinset.filter p' := by
    ext e
    simp only [Finset.mem_map, Finset.mem_filter, Function.Embedding.coeFn_mk, List.mem_toFinset]
    constructor
    · rintro ⟨f, ⟨h1, h2⟩, rfl⟩
      induction f using Sym2.ind with
      | _ i j =>
        refine ⟨?_, (hp _).1 h2⟩
        simpa using (hmem i j).1 h1
    · rintro ⟨h1, h2⟩
      induction e using Sym2.ind with
      | _ a b =>
        have ha := hlt _ h1 a (by simp)
        have hb := hlt _ h1 b (by simp)
        refine ⟨s(⟨a, ha⟩, ⟨b, hb⟩), ⟨(hmem _ _).2 h1, (hp _).2 (by simpa using h2)⟩, by simp⟩
  have hc := congrArg Finset.card hm
  rw [Finset.card_map] at hc
  rw [hc, List.countP_eq_length_filter, ← List.toFinset_card_of_nodup (hQ.filter _)]
  congr 1
  ext e
  simp

/-! ## Blocks -/

/-- the labels of blocks of the sizes `s` -/
def blocks (s : List ℕ) : List ℕ := (List.range s.length).flatMap fun c : ℕ => List.replicate (s.getD c 0) c

theorem blocks_snoc (s : List ℕ) (x : ℕ) : blocks (s ++ [x]) = blocks s ++ List.replicate x s.length := by
  unfold blocks
  rw [List.length_append, List.length_singleton, List.range_succ, List.flatMap_append]
  congr 1
  · rw [List.flatMap_congr]
    intro c hc
    rw [List.getD_append _ _ _ _ (List.mem_range.1 hc)]
  · rw [List.flatMap_singleton, List.getD_append_right _ _ _ _ le_rfl]
    simp

theorem blocks_length (s : List ℕ) : (blocks s).length = s.sum := by
  induction s using List.reverseRecOn with
  | nil => rfl
  | append_singleton s x ih => rw [blocks_snoc, List.length_append, ih]; simp

theorem blocks_get (s : List ℕ) {c k : ℕ} (hc : c < s.length) (hk : k < s.getD c 0) : (blocks s).getD ((s.take c).sum + k) 0 = c := by
  induction s using List.reverseRecOn with
  | nil => simp at hc
  | append_singleton s x ih =>
    rw [blocks_snoc]
    rw [List.length_append, List.length_singleton] at hc
    by_cases h : c < s.length
    · rw [List.take_append_of_le_length h.le]
      rw [List.getD_append _ _ _ _ h] at hk
      rw [List.getD_append]
      · exact ih h hk
      · rw [blocks_length]
        have : (s.take (c + 1)).sum ≤ s.sum := (List.take_sublist _ _).sum_le_sum (fun _ _ => Nat.zero_le _)
        rw [List.take_add_one, List.sum_append] at this
        rw [List.getD_eq_getElem _ _ h] at hk
        simp [h] at this
        omega
    · have hcs : c = s.length := by omega
      subst hcs
      rw [List.take_left, List.getD_append_right _ _ _ _ (by rw [blocks_length]; omega), blocks_length]
      rw [List.getD_append_right _ _ _ _ le_rfl] at hk
      simp only [Nat.sub_self, List.getD_cons_zero] at hk
      rw [Nat.add_sub_cancel_left, List.getD_eq_getElem _ _ (by simpa using hk)]
      simp

theorem blocks_exists (s : List ℕ) {v : ℕ} (hv : v < s.sum) : ∃ c k, c < s.length ∧ k < s.getD c 0 ∧ v = (s.take c).sum + k := by
  induction s using List.reverseRecOn with
  | nil => simp at hv
  | append_singleton s x ih =>
    by_cases h : v < s.sum
    · obtain ⟨c, k, h1, h2, h3⟩ := ih h
      refine ⟨c, k, by simp; omega, ?_, ?_⟩
      · rwa [List.getD_append _ _ _ _ h1]
      · rwa [List.take_append_of_le_length h1.le]
    · rw [List.sum_append, List.sum_singleton] at hv
      refine ⟨s.length, v - s.sum, by simp, ?_, ?_⟩
      · rw [List.getD_append_right _ _ _ _ le_rfl]; simp; omega
      · rw [List.take_left]; omega

theorem start_le (s : List ℕ) {c : ℕ} (hc : c < s.length) : (s.take c).sum + s.getD c 0 ≤ s.sum := by
  have : (s.take (c + 1)).sum ≤ s.sum := (List.take_sublist _ _).sum_le_sum (fun _ _ => Nat.zero_le _)
  rw [List.take_add_one, List.sum_append] at this
  rw [List.getD_eq_getElem _ _ hc]
  simpa [hc] using this

theorem blocks_count (s : List ℕ) (c : ℕ) : (blocks s).count c = s.getD c 0 := by
  induction s using List.reverseRecOn with
  | nil => simp [blocks]
  | append_singleton s x ih =>
    rw [blocks_snoc, List.count_append, ih, List.count_replicate]
    rcases lt_trichotomy c s.length with h | h | h
    · rw [List.getD_append _ _ _ _ h]
      simp [h.ne']
    · subst h
      rw [List.getD_append_right _ _ _ _ le_rfl, List.getD_eq_default _ _ le_rfl]
      simp
    · rw [List.getD_eq_default _ _ h.le, List.getD_eq_default _ _ (by simp; omega)]
      simp [h.ne]

theorem blocks_sorted (s : List ℕ) : (blocks s).Pairwise (· ≤ ·) := by
  induction s using List.reverseRecOn with
  | nil => simp [blocks]
  | append_singleton s x ih =>
    rw [blocks_snoc, List.pairwise_append]
    refine ⟨ih, List.pairwise_replicate.2 (Or.inr le_rfl), ?_⟩
    intro a ha b hb
    rw [List.eq_of_mem_replicate hb]
    unfold blocks at ha
    obtain ⟨c, hc, hac⟩ := List.mem_flatMap.1 ha
    rw [List.eq_of_mem_replicate hac]
    exact (List.mem_range.1 hc).le

theorem mem_blocks_lt (s : List ℕ) {c : ℕ} (h : c ∈ blocks s) : c < s.length := by
  unfold blocks at h
  obtain ⟨d, hd, hcd⟩ := List.mem_flatMap.1 h
  rw [List.eq_of_mem_replicate hcd]
  exact List.mem_range.1 hd

/-- a sorted list of labels is made of blocks -/
theorem sorted_eq_blocks {l : List ℕ} (hs : l.Pairwise (· ≤ ·)) {nc : ℕ} (hlt : ∀ c ∈ l, c < nc) :
    l = blocks ((List.range nc).map fun c : ℕ => l.count c) := by
  refine List.Perm.eq_of_pairwise (le := (· ≤ ·)) (fun a b _ _ h1 h2 => le_antisymm h1 h2) hs (blocks_sorted _) ?_
  rw [List.perm_iff_count]
  intro c
  rw [blocks_count]
  by_cases h : c < nc
  · rw [List.getD_eq_getElem _ _ (by simpa using h)]; simp
  · rw [List.getD_eq_default _ _ (by simpa using h), List.count_eq_zero]
    exact fun hc => h (hlt c hc)

end PyGSP.Gen
