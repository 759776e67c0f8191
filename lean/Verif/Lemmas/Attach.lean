import Verif.Model.Barabasi
import Verif.Lemmas.RandomDraws

/-!
# Drawing one index with given probabilities, and drawing again and again
-/

namespace PyGSP

open MeasureTheory Measure ProbabilityTheory Spec

namespace Random

/-- The next draw is independent of what has been made of the previous ones. -/
theorem draw_next {β : Type} [MeasurableSpace β] {X : (ℕ → ℝ) → β} (hX : Measurable X) {i : ℕ} (hdep : ∀ u u', (∀ j < i, u j = u' j) → X u = X u')
    {S : Set (β × ℝ)} (hS : MeasurableSet S) : draws {u | (X u, u i) ∈ S} = ∫⁻ u, uniform {x | (X u, x) ∈ S} ∂draws := by
  have hind : IndepFun X (fun u : ℕ → ℝ => u i) draws := by
    have h1 : iIndepFun (fun (j : ℕ) (u : ℕ → ℝ) => u j) draws := iIndepFun_infinitePi (X := fun _ x => x) fun _ => measurable_id
    have h2 := h1.indepFun_finset (Finset.range i) {i} (by simp) fun j => measurable_pi_apply j
    let ext : (Finset.range i → ℝ) → ℕ → ℝ := fun x j => if h : j ∈ Finset.range i then x ⟨j, h⟩ else 0
    have hext : Measurable ext := by
      refine measurable_pi_lambda _ fun j => ?_
      by_cases h : j ∈ Finset.range i
      · simp only [ext, h, dif_pos]
        exact measurable_pi_apply _
      · simp only [ext, h, dif_neg, not_false_eq_true]
        exact measurable_const
    have h3 := h2.comp (hX.comp hext) (measurable_pi_apply (⟨i, by simp⟩ : ({i} : Finset ℕ)))
    have e1 : ((X ∘ ext) ∘ fun (u : ℕ → ℝ) (j : Finset.range i) => u j) = X := by
      funext u
      refine hdep _ _ fun j hj => ?_
      simp [ext, hj]
    rw [e1] at h3
    exact h3
  have hm : Measurable fun u : ℕ → ℝ => u i := measurable_pi_apply i
  have hmap := hind.map_prod_eq_prod_map_map hX.aemeasurable hm.aemeasurable
  have hu : draws.map (fun u : ℕ → ℝ => u i) = uniform := by
    unfold draws
    exact infinitePi_map_eval _ i
  have e : {u : ℕ → ℝ | (X u, u i) ∈ S} = (fun u : ℕ → ℝ => (X u, u i)) ⁻¹' S := rfl
  rw [e, ← Measure.map_apply (hX.prodMk hm) hS, hmap, hu]
  have : IsProbabilityMeasure (draws.map X) := Measure.isProbabilityMeasure_map hX.aemeasurable
  rw [Measure.prod_apply hS, lintegral_map (measurable_measure_prodMk_left hS) hX]
  rfl

theorem uniform_slice {a p : ℝ} (ha : 0 ≤ a) (h1 : a + p ≤ 1) : uniform {x | a ≤ x ∧ x < a + p} = ENNReal.ofReal p := by
  unfold uniform
  have hm : MeasurableSet {x : ℝ | a ≤ x ∧ x < a + p} := measurableSet_Ico (a := a) (b := a + p)
  rw [Measure.restrict_apply hm]
  have : {x : ℝ | a ≤ x ∧ x < a + p} ∩ Set.Ico 0 1 = Set.Ico a (a + p) := by
    ext t
    simp only [Set.mem_inter_iff, Set.mem_setOf_eq, Set.mem_Ico]
    constructor
    · rintro ⟨h, -⟩
      exact h
    · rintro ⟨h, h'⟩
      exact ⟨⟨h, h'⟩, ha.trans h, h'.trans_le h1⟩
  rw [this, Real.volume_Ico]
  congr 1
  ring

/-- Almost surely all the draws are in `[0, 1)`. -/
theorem draws_range : ∀ᵐ u ∂draws, ∀ i, 0 ≤ u i ∧ u i < 1 := by
  rw [ae_all_iff]
  intro i
  have hu : draws.map (fun u : ℕ → ℝ => u i) = uniform := by
    unfold draws
    exact infinitePi_map_eval _ i
  have h : ∀ᵐ x ∂uniform, 0 ≤ x ∧ x < 1 := by
    unfold uniform
    exact ae_restrict_mem measurableSet_Ico
  rw [← hu] at h
  exact ae_of_ae_map (measurable_pi_apply i).aemeasurable h

end Random

namespace Gen

variable {N : ℕ}

/-- the sum of the probabilities before `v` -/
noncomputable def below (p : Fin N → ℝ) (v : Fin N) : ℝ := ∑ w with w < v, p w

theorem mem_pickOne {x : ℝ} {p : Fin N → ℝ} {v : Fin N} : v ∈ pickOne x p ↔ below p v ≤ x ∧ x < below p v + p v := by
  unfold pickOne below
  simp

theorem below_mono {p : Fin N → ℝ} (hp : ∀ v, 0 ≤ p v) {v w : Fin N} (h : v < w) : below p v + p v ≤ below p w := by
  unfold below
  have hn : v ∉ Finset.univ.filter fun a : Fin N => a < v := by simp
  rw [add_comm, ← Finset.sum_insert hn]
  refine Finset.sum_le_sum_of_subset_of_nonneg (fun a ha => ?_) fun a _ _ => hp a
  simp only [Finset.mem_insert, Finset.mem_filter, Finset.mem_univ, true_and] at ha ⊢
  rcases ha with rfl | ha
  · exact h
  · exact ha.trans h

theorem below_nonneg {p : Fin N → ℝ} (hp : ∀ v, 0 ≤ p v) (v : Fin N) : 0 ≤ below p v := Finset.sum_nonneg fun a _ => hp a

theorem below_le {p : Fin N → ℝ} (hp : ∀ v, 0 ≤ p v) (v : Fin N) : below p v + p v ≤ ∑ w, p w := by
  unfold below
  have hn : v ∉ Finset.univ.filter fun a : Fin N => a < v := by simp
  rw [add_comm, ← Finset.sum_insert hn]
  exact Finset.sum_le_sum_of_subset_of_nonneg (Finset.subset_univ _) fun a _ _ => hp a

/-- At most one index is picked. -/
theorem pickOne_unique {x : ℝ} {p : Fin N → ℝ} (hp : ∀ v, 0 ≤ p v) {v w : Fin N} (hv : v ∈ pickOne x p) (hw : w ∈ pickOne x p) : v = w := by
  rw [mem_pickOne] at hv hw
  by_contra hne
  rcases lt_or_gt_of_ne hne with h | h
  · have := below_mono hp h
    linarith [hv.2, hw.1]
  · have := below_mono hp h
    linarith [hw.2, hv.1]

/-- One is, when the number drawn is below the sum. -/
theorem pickOne_exists {x : ℝ} {p : Fin N → ℝ} (hx : 0 ≤ x) (hx' : x < ∑ v, p v) : ∃ v, v ∈ pickOne x p := by
  by_contra hn
  push Not at hn
  have key : ∀ k (hk : k ≤ N), (∑ w : Fin N with w.1 < k, p w) ≤ x := by
    intro k
    induction k with
    | zero => intro _; simpa using hx
    | succ k ih =>
      intro hk
      have h1 := ih (by omega)
      let v : Fin N := ⟨k, by omega⟩
      have e1 : below p v = ∑ w : Fin N with w.1 < k, p w := rfl
      have h2 : ¬ (below p v ≤ x ∧ x < below p v + p v) := fun h => hn v (mem_pickOne.mpr h)
      have h3 : below p v + p v ≤ x := by
        by_contra h
        exact h2 ⟨by rw [e1]; exact h1, not_le.mp h⟩
      have e2 : (∑ w : Fin N with w.1 < k + 1, p w) = below p v + p v := by
        unfold below
        have hv : v ∉ Finset.univ.filter fun a : Fin N => a < v := by simp
        rw [add_comm (∑ w with w < v, p w), ← Finset.sum_insert hv]
        refine Finset.sum_congr ?_ fun _ _ => rfl
        ext w
        simp only [Finset.mem_filter, Finset.mem_univ, true_and, Finset.mem_insert, v, Fin.lt_def, Fin.ext_iff]
        omega
      rw [e2]
      exact h3
  have := key N le_rfl
  have e : (∑ w : Fin N with w.1 < N, p w) = ∑ w, p w := by
    refine Finset.sum_congr ?_ fun _ _ => rfl
    ext w
    simp
  rw [e] at this
  linarith

/-- It is what numpy documents. -/
theorem choiceSpec_pickOne {u : ℕ → ℝ} (hu : ∀ i, 0 ≤ u i ∧ u i < 1) : ChoiceSpec (N := N) 1 fun i p => pickOne (u i) p := by
  intro i p hp hs _
  obtain ⟨v, hv⟩ := pickOne_exists (p := p) (hu i).1 (by rw [hs]; exact (hu i).2)
  have hnd : (pickOne (u i) p).Nodup := (List.nodup_finRange N).filter _
  refine ⟨hnd, ?_, ?_⟩
  · have : pickOne (u i) p = [v] := by
      have hall : ∀ w ∈ pickOne (u i) p, w = v := fun w hw => pickOne_unique hp hw hv
      rw [List.eq_replicate_of_mem hall] at hnd hv ⊢
      rw [List.nodup_replicate] at hnd
      have : (pickOne (u i) p).length ≠ 0 := by
        intro h
        rw [h] at hv
        simp at hv
      rw [show (pickOne (u i) p).length = 1 by omega]
      rfl
    show (pickOne (u i) p).length = 1
    rw [this]
    rfl
  · intro w hw
    have := mem_pickOne.mp hw
    intro h0
    rw [h0] at this
    linarith [this.1, this.2]

end Gen

end PyGSP
