import Mathlib.Probability.ProductMeasure
import Mathlib.Probability.Moments.SubGaussian
import Mathlib.Probability.Independence.InfinitePi
import Mathlib.MeasureTheory.Measure.Lebesgue.Basic
import Mathlib.Algebra.BigOperators.Ring.Finset
import Mathlib.Analysis.SpecificLimits.Basic

/-!
# Independent uniform random numbers

`Spec.draws` is the distribution of the successive values of `rng.uniform()` for an ideal generator.
-/

namespace PyGSP

open MeasureTheory Measure

/-- The uniform distribution on `[0, 1)`. -/
noncomputable def Spec.uniform : Measure ℝ := volume.restrict (Set.Ico 0 1)

instance : IsProbabilityMeasure Spec.uniform := ⟨by simp [Spec.uniform]⟩

/-- Independent uniform random numbers in `[0, 1)`. -/
noncomputable def Spec.draws : Measure (ℕ → ℝ) := Measure.infinitePi fun _ => Spec.uniform

instance : IsProbabilityMeasure Spec.draws := by unfold Spec.draws; infer_instance

namespace Random

open Spec

theorem uniform_lt {p : ℝ} (h1 : p ≤ 1) : uniform {t | t < p} = ENNReal.ofReal p := by
  unfold uniform
  rw [Measure.restrict_apply (show MeasurableSet {t : ℝ | t < p} from measurableSet_lt measurable_id measurable_const)]
  have : {t : ℝ | t < p} ∩ Set.Ico 0 1 = Set.Ico 0 p := by
    ext t; simp only [Set.mem_inter_iff, Set.mem_setOf_eq, Set.mem_Ico]
    constructor
    · rintro ⟨a, b, c⟩; exact ⟨b, a⟩
    · rintro ⟨a, b⟩; exact ⟨b, a, b.trans_le h1⟩
  rw [this, Real.volume_Ico, sub_zero]

theorem uniform_not_lt {p : ℝ} (h0 : 0 ≤ p) (h1 : p ≤ 1) : uniform {t | ¬ t < p} = ENNReal.ofReal (1 - p) := by
  unfold uniform
  rw [Measure.restrict_apply (show MeasurableSet {t : ℝ | ¬ t < p} from (measurableSet_lt measurable_id measurable_const).compl)]
  have : {t : ℝ | t < p}ᶜ ∩ Set.Ico 0 1 = Set.Ico p 1 := by
    ext t; simp only [Set.mem_inter_iff, Set.mem_compl_iff, Set.mem_setOf_eq, Set.mem_Ico, not_lt]
    constructor
    · rintro ⟨a, b, c⟩; exact ⟨a, c⟩
    · rintro ⟨a, b⟩; exact ⟨a, h0.trans a, b⟩
  have e : {t : ℝ | ¬ t < p} ∩ Set.Ico 0 1 = Set.Ico p 1 := this
  rw [e, Real.volume_Ico]

section
variable {ι : Type} [Fintype ι]

theorem measurable_event (c : ℕ) (q : ℝ) (b : Prop) : MeasurableSet {u : ℕ → ℝ | u c < q ↔ b} := by
  have h : MeasurableSet {u : ℕ → ℝ | u c < q} := measurableSet_lt (measurable_pi_apply c) measurable_const
  by_cases hb : b
  · simpa [hb] using h
  · have e : {u : ℕ → ℝ | u c < q ↔ b} = {u : ℕ → ℝ | u c < q}ᶜ := by ext u; simp [hb]
    rw [e]; exact h.compl

open Classical in
/-- different draws are independent -/
theorem cylinder (idx : ι → ℕ) (hidx : Function.Injective idx) (p : ι → ℝ) (hp : ∀ e, 0 ≤ p e ∧ p e ≤ 1) (b : ι → Prop) :
    draws {u | ∀ e, (u (idx e) < p e ↔ b e)} = ENNReal.ofReal (∏ e, if b e then p e else 1 - p e) := by
  have hset : {u : ℕ → ℝ | ∀ e, (u (idx e) < p e ↔ b e)} =
      Set.pi (Finset.univ.map ⟨idx, hidx⟩ : Finset ℕ) fun c => {t | ∀ e, idx e = c → (t < p e ↔ b e)} := by
    ext u
    simp only [Set.mem_setOf_eq, Set.mem_pi, Finset.coe_map, Function.Embedding.coeFn_mk, Finset.coe_univ, Set.image_univ, Set.mem_range]
    constructor
    · rintro h c ⟨e, rfl⟩ e' he
      rw [hidx he]; exact h e
    · intro h e
      exact h _ ⟨e, rfl⟩ e rfl
  have hone : ∀ (q : ℝ) (P : Prop), MeasurableSet {t : ℝ | t < q ↔ P} := by
    intro q P
    have h : MeasurableSet {t : ℝ | t < q} := measurableSet_lt measurable_id measurable_const
    by_cases hP : P
    · simpa [hP] using h
    · have e : {t : ℝ | t < q ↔ P} = {t : ℝ | t < q}ᶜ := by ext u; simp [hP]
      rw [e]; exact h.compl
  rw [hset]
  unfold draws
  rw [infinitePi_pi, Finset.prod_map, ENNReal.ofReal_prod_of_nonneg]
  · refine Finset.prod_congr rfl fun e _ => ?_
    have : {t : ℝ | ∀ e', idx e' = (⟨idx, hidx⟩ : ι ↪ ℕ) e → (t < p e' ↔ b e')} = {t : ℝ | t < p e ↔ b e} := by
      ext t
      simp only [Set.mem_setOf_eq, Function.Embedding.coeFn_mk]
      constructor
      · intro h; exact h e rfl
      · intro h e' he; rw [hidx he]; exact h
    rw [this]
    by_cases hb : b e
    · simp only [hb, iff_true, if_true]; exact uniform_lt (hp e).2
    · simp only [hb, iff_false, if_false]; exact uniform_not_lt (hp e).1 (hp e).2
  · intro e _
    split
    · exact (hp e).1
    · linarith [(hp e).2]
  · intro c hc
    have : {t : ℝ | ∀ e, idx e = c → (t < p e ↔ b e)} = ⋂ e, {t : ℝ | idx e = c → (t < p e ↔ b e)} := by ext t; simp
    rw [this]
    refine MeasurableSet.iInter fun e => ?_
    by_cases he : idx e = c
    · simp only [he, true_imp_iff]; exact hone _ _
    · simp only [he, false_imp_iff]; exact MeasurableSet.univ

open Classical in
/-- the set of successes of the attempt `a` -/
noncomputable def successes (idx : ℕ → ι → ℕ) (p : ι → ℝ) (u : ℕ → ℝ) (a : ℕ) : Finset ι := Finset.univ.filter fun e => u (idx a e) < p e

open Classical in
/-- the probability of a set of successes -/
noncomputable def law (p : ι → ℝ) (C : Finset ι) : ℝ := ∏ e, if e ∈ C then p e else 1 - p e

theorem law_nonneg {p : ι → ℝ} (hp : ∀ e, 0 ≤ p e ∧ p e ≤ 1) (C : Finset ι) : 0 ≤ law p C :=
  Finset.prod_nonneg fun e _ => by split; exacts [(hp e).1, by linarith [(hp e).2]]

open Classical in
theorem law_total (p : ι → ℝ) : ∑ C : Finset ι, law p C = 1 := by
  have h := Finset.prod_add (fun e => p e) (fun e => 1 - p e) (Finset.univ : Finset ι)
  simp only [add_sub_cancel, Finset.prod_const_one] at h
  rw [h, Finset.powerset_univ]
  refine Finset.sum_congr rfl fun C _ => ?_
  unfold law
  rw [Finset.prod_ite]
  congr 1
  · exact Finset.prod_congr (by ext e; simp) fun _ _ => rfl
  · exact Finset.prod_congr (by ext e; simp) fun _ _ => rfl

variable {idx : ℕ → ι → ℕ} {p : ι → ℝ}

theorem mem_successes (u : ℕ → ℝ) (a : ℕ) (e : ι) : e ∈ successes idx p u a ↔ u (idx a e) < p e := by
  unfold successes
  simp

theorem successes_eq (u : ℕ → ℝ) (a : ℕ) (C : Finset ι) : successes idx p u a = C ↔ ∀ e, (u (idx a e) < p e ↔ e ∈ C) := by
  unfold successes
  rw [Finset.ext_iff]
  simp

theorem measurable_successes (a : ℕ) (C : Finset ι) : MeasurableSet {u : ℕ → ℝ | successes idx p u a = C} := by
  have : {u : ℕ → ℝ | successes idx p u a = C} = ⋂ e, {u : ℕ → ℝ | u (idx a e) < p e ↔ e ∈ C} := by
    ext u; simp [successes_eq]
  rw [this]
  exact MeasurableSet.iInter fun e => measurable_event _ _ _

open Classical in
/-- different attempts are independent -/
theorem blocks (hidx : ∀ a e a' e', idx a e = idx a' e' → a = a' ∧ e = e') (hp : ∀ e, 0 ≤ p e ∧ p e ≤ 1) (t : ℕ) (F : Fin t → Finset (Finset ι)) :
    draws {u | ∀ a : Fin t, successes idx p u a ∈ F a} = ENNReal.ofReal (∏ a, ∑ C ∈ F a, law p C) := by
  have hset : {u : ℕ → ℝ | ∀ a : Fin t, successes idx p u a ∈ F a} =
      ⋃ C ∈ Fintype.piFinset F, {u : ℕ → ℝ | ∀ a : Fin t, successes idx p u a = C a} := by
    ext u
    simp only [Set.mem_setOf_eq, Set.mem_iUnion, Fintype.mem_piFinset, exists_prop]
    constructor
    · intro h; exact ⟨fun a => successes idx p u a, h, fun _ => rfl⟩
    · rintro ⟨C, hC, h⟩ a; rw [h a]; exact hC a
  rw [hset, measure_biUnion_finset]
  · rw [Finset.prod_univ_sum, ENNReal.ofReal_sum_of_nonneg fun C _ => Finset.prod_nonneg fun a _ => law_nonneg hp _]
    refine Finset.sum_congr rfl fun C _ => ?_
    have h := cylinder (ι := Fin t × ι) (fun x => idx x.1 x.2)
      (fun x y hxy => by obtain ⟨h1, h2⟩ := hidx _ _ _ _ hxy; exact Prod.ext (Fin.ext h1) h2) (fun x => p x.2) (fun x => hp x.2) fun x => x.2 ∈ C x.1
    have e1 : {u : ℕ → ℝ | ∀ a : Fin t, successes idx p u a = C a} = {u | ∀ x : Fin t × ι, (u (idx x.1 x.2) < p x.2 ↔ x.2 ∈ C x.1)} := by
      ext u
      simp only [Set.mem_setOf_eq, successes_eq, Prod.forall]
    rw [e1, h]
    congr 1
    rw [Fintype.prod_prod_type]
    refine Finset.prod_congr rfl fun a _ => ?_
    unfold law
    exact Finset.prod_congr rfl fun e _ => by congr
  · intro C _ C' _ hne
    rw [Function.onFun, Set.disjoint_left]
    intro u h1 h2
    exact hne (funext fun a => (h1 a).symm.trans (h2 a))
  · intro C _
    have : {u : ℕ → ℝ | ∀ a : Fin t, successes idx p u a = C a} = ⋂ a : Fin t, {u : ℕ → ℝ | successes idx p u a = C a} := by ext u; simp
    rw [this]
    exact MeasurableSet.iInter fun a => measurable_successes _ _

open Classical in
theorem sum_not (F : Finset (Finset ι)) : ∑ C ∈ Fᶜ, law p C = 1 - ∑ C ∈ F, law p C := by
  rw [← law_total p, ← Finset.sum_add_sum_compl F]; ring

open Classical in
/-- the first accepted attempt is the attempt `a`, and it is `C` -/
theorem first_at (hidx : ∀ a e a' e', idx a e = idx a' e' → a = a' ∧ e = e') (hp : ∀ e, 0 ≤ p e ∧ p e ≤ 1) (F : Finset (Finset ι)) (C : Finset ι) (a : ℕ) :
    draws {u | (∀ b < a, successes idx p u b ∉ F) ∧ successes idx p u a = C} = ENNReal.ofReal ((1 - ∑ C ∈ F, law p C) ^ a * law p C) := by
  have h := blocks hidx hp (a + 1) (Fin.snoc (α := fun _ => Finset (Finset ι)) (fun _ : Fin a => Fᶜ) {C})
  rw [Fin.prod_univ_castSucc] at h
  simp only [Fin.snoc_castSucc, Fin.snoc_last, Finset.prod_const, Finset.card_univ, Fintype.card_fin, Finset.sum_singleton, sum_not] at h
  rw [← h]
  congr 1
  ext u
  simp only [Set.mem_setOf_eq, Fin.forall_fin_succ', Fin.snoc_castSucc, Fin.snoc_last, Finset.mem_compl, Finset.mem_singleton, Fin.val_castSucc, Fin.val_last]
  refine and_congr_left fun _ => ⟨fun hb i => hb i i.2, fun hb b hba => hb ⟨b, hba⟩⟩

open Classical in
theorem none_before (hidx : ∀ a e a' e', idx a e = idx a' e' → a = a' ∧ e = e') (hp : ∀ e, 0 ≤ p e ∧ p e ≤ 1) (F : Finset (Finset ι)) (t : ℕ) :
    draws {u | ∀ b < t, successes idx p u b ∉ F} = ENNReal.ofReal ((1 - ∑ C ∈ F, law p C) ^ t) := by
  have h := blocks hidx hp t fun _ => Fᶜ
  simp only [Finset.prod_const, Finset.card_univ, Fintype.card_fin, sum_not] at h
  rw [← h]
  congr 1
  ext u
  simp only [Set.mem_setOf_eq, Finset.mem_compl]
  exact ⟨fun hb i => hb i i.2, fun hb b hba => hb ⟨b, hba⟩⟩

theorem measurable_before [DecidableEq ι] (F : Finset (Finset ι)) (a : ℕ) : MeasurableSet {u : ℕ → ℝ | ∀ b < a, successes idx p u b ∉ F} := by
  have : {u : ℕ → ℝ | ∀ b < a, successes idx p u b ∉ F} = ⋂ b ∈ Finset.range a, ⋂ C ∈ F, {u : ℕ → ℝ | successes idx p u b = C}ᶜ := by
    ext u
    simp only [Set.mem_setOf_eq, Set.mem_iInter, Finset.mem_range, Set.mem_compl_iff]
    exact ⟨fun h b hb C hC e => h b hb (e ▸ hC), fun h b hb hm => h b hb _ hm rfl⟩
  rw [this]
  exact Finset.measurableSet_biInter _ fun b _ => Finset.measurableSet_biInter _ fun C _ => (measurable_successes b C).compl

open Classical in
/-- the first accepted attempt, if there is one among the first `t`, is `C` -/
theorem first_within (hidx : ∀ a e a' e', idx a e = idx a' e' → a = a' ∧ e = e') (hp : ∀ e, 0 ≤ p e ∧ p e ≤ 1) (F : Finset (Finset ι)) {C : Finset ι}
    (hC : C ∈ F) (t : ℕ) :
    draws {u | ∃ a < t, (∀ b < a, successes idx p u b ∉ F) ∧ successes idx p u a = C} =
      ENNReal.ofReal (law p C * ∑ a ∈ Finset.range t, (1 - ∑ C ∈ F, law p C) ^ a) := by
  have hset : {u : ℕ → ℝ | ∃ a < t, (∀ b < a, successes idx p u b ∉ F) ∧ successes idx p u a = C} =
      ⋃ a ∈ Finset.range t, {u : ℕ → ℝ | (∀ b < a, successes idx p u b ∉ F) ∧ successes idx p u a = C} := by
    ext u; simp only [Set.mem_setOf_eq, Set.mem_iUnion, Finset.mem_range, exists_prop]
  have hq : 0 ≤ 1 - ∑ C ∈ F, law p C := by
    rw [← sum_not]; exact Finset.sum_nonneg fun _ _ => law_nonneg hp _
  rw [hset, measure_biUnion_finset, Finset.mul_sum, ENNReal.ofReal_sum_of_nonneg]
  · refine Finset.sum_congr rfl fun a _ => ?_
    rw [first_at hidx hp, mul_comm]
  · intro a _
    exact mul_nonneg (law_nonneg hp _) (pow_nonneg hq _)
  · intro a _ a' _ hne
    rw [Function.onFun, Set.disjoint_left]
    rintro u ⟨h1, h2⟩ ⟨h3, h4⟩
    rcases lt_or_gt_of_ne hne with h | h
    · exact h3 a h (h2 ▸ hC)
    · exact h1 a' h (h4 ▸ hC)
  · intro a _
    exact (measurable_before F a).inter (measurable_successes a C)

open Classical in
/-- the first accepted attempt is `C`: the conditional probability -/
theorem first_ever (hidx : ∀ a e a' e', idx a e = idx a' e' → a = a' ∧ e = e') (hp : ∀ e, 0 ≤ p e ∧ p e ≤ 1) (F : Finset (Finset ι)) {C : Finset ι}
    (hC : C ∈ F) (hF : 0 < ∑ C ∈ F, law p C) :
    draws {u | ∃ a, (∀ b < a, successes idx p u b ∉ F) ∧ successes idx p u a = C} = ENNReal.ofReal (law p C / ∑ C ∈ F, law p C) := by
  have hset : {u : ℕ → ℝ | ∃ a, (∀ b < a, successes idx p u b ∉ F) ∧ successes idx p u a = C} =
      ⋃ a, {u : ℕ → ℝ | (∀ b < a, successes idx p u b ∉ F) ∧ successes idx p u a = C} := by
    ext u; simp
  have hq : 0 ≤ 1 - ∑ C ∈ F, law p C := by
    rw [← sum_not]; exact Finset.sum_nonneg fun _ _ => law_nonneg hp _
  have hq1 : 1 - ∑ C ∈ F, law p C < 1 := by linarith
  rw [hset, measure_iUnion]
  · simp only [first_at hidx hp]
    rw [← ENNReal.ofReal_tsum_of_nonneg]
    · congr 1
      rw [tsum_mul_right, tsum_geometric_of_lt_one hq hq1, sub_sub_cancel]
      ring
    · intro a; exact mul_nonneg (pow_nonneg hq _) (law_nonneg hp _)
    · exact (summable_geometric_of_lt_one hq hq1).mul_right _
  · intro a a' hne
    rw [Function.onFun, Set.disjoint_left]
    rintro u ⟨h1, h2⟩ ⟨h3, h4⟩
    rcases lt_or_gt_of_ne hne with h | h
    · exact h3 a h (h2 ▸ hC)
    · exact h1 a' h (h4 ▸ hC)
  · intro a
    exact (measurable_before F a).inter (measurable_successes a C)

open Classical in
theorem never (hidx : ∀ a e a' e', idx a e = idx a' e' → a = a' ∧ e = e') (hp : ∀ e, 0 ≤ p e ∧ p e ≤ 1) (F : Finset (Finset ι))
    (hF : 0 < ∑ C ∈ F, law p C) : draws {u | ∀ b, successes idx p u b ∉ F} = 0 := by
  have hq : 0 ≤ 1 - ∑ C ∈ F, law p C := by
    rw [← sum_not]; exact Finset.sum_nonneg fun _ _ => law_nonneg hp _
  have hq1 : 1 - ∑ C ∈ F, law p C < 1 := by linarith
  have hle : ∀ t, draws {u | ∀ b, successes idx p u b ∉ F} ≤ ENNReal.ofReal ((1 - ∑ C ∈ F, law p C) ^ t) := by
    intro t
    rw [← none_before hidx hp F t]
    exact measure_mono fun u hu b _ => hu b
  have hlim := ENNReal.tendsto_ofReal (tendsto_pow_atTop_nhds_zero_of_lt_one hq hq1)
  rw [ENNReal.ofReal_zero] at hlim
  exact le_antisymm (ge_of_tendsto' hlim hle) zero_le

open Classical in
/-- the indicator of a success -/
noncomputable def hit (idx : ι → ℕ) (p : ι → ℝ) (e : ι) (u : ℕ → ℝ) : ℝ := if u (idx e) < p e then 1 else 0

theorem hit_measurable (idx : ι → ℕ) (p : ι → ℝ) (e : ι) : Measurable (hit idx p e) := by
  classical
  exact Measurable.ite (measurableSet_lt (measurable_pi_apply _) measurable_const) measurable_const measurable_const

theorem hit_mem (idx : ι → ℕ) (p : ι → ℝ) (e : ι) (u : ℕ → ℝ) : hit idx p e u ∈ Set.Icc (0 : ℝ) 1 := by
  unfold hit; split <;> simp

theorem hit_integral (idx : ι → ℕ) (p : ι → ℝ) (hp : ∀ e, 0 ≤ p e ∧ p e ≤ 1) (e : ι) : ∫ u, hit idx p e u ∂draws = p e := by
  classical
  have h : hit idx p e = Set.indicator {u : ℕ → ℝ | u (idx e) < p e} 1 := by
    funext u; unfold hit Set.indicator; simp
  rw [h, integral_indicator_one (measurableSet_lt (measurable_pi_apply _) measurable_const)]
  have := cylinder (ι := Unit) (fun _ => idx e) (fun _ _ _ => rfl) (fun _ => p e) (fun _ => hp e) fun _ => True
  simp only [forall_const, iff_true, if_true, Finset.univ_unique, Finset.prod_const, Finset.card_singleton, pow_one] at this
  rw [Measure.real, this, ENNReal.toReal_ofReal (hp e).1]

theorem hit_indep (idx : ι → ℕ) (hidx : Function.Injective idx) (p : ι → ℝ) : ProbabilityTheory.iIndepFun (hit idx p) draws := by
  classical
  have h0 := ProbabilityTheory.iIndepFun_infinitePi (P := fun _ : ℕ => uniform) (X := fun _ (t : ℝ) => t) (fun _ => measurable_id)
  have h1 := h0.precomp hidx
  exact h1.comp (fun e t => if t < p e then (1 : ℝ) else 0) fun e =>
    Measurable.ite (measurableSet_lt measurable_id measurable_const) measurable_const measurable_const

theorem card_successes (u : ℕ → ℝ) (a : ℕ) : ((successes idx p u a).card : ℝ) = ∑ e, hit (idx a) p e u := by
  classical
  unfold successes hit
  rw [Finset.sum_ite, Finset.sum_const_zero, add_zero, Finset.sum_const, nsmul_eq_mul, mul_one]

theorem count_mean (hp : ∀ e, 0 ≤ p e ∧ p e ≤ 1) (a : ℕ) : ∫ u, ((successes idx p u a).card : ℝ) ∂draws = ∑ e, p e := by
  simp only [card_successes]
  rw [integral_finset_sum _ fun e _ => Integrable.of_mem_Icc 0 1 (hit_measurable _ _ e).aemeasurable (.of_forall fun u => hit_mem _ _ e u)]
  exact Finset.sum_congr rfl fun e _ => hit_integral _ _ hp e

open NNReal in
/-- Hoeffding -/
theorem count_tail (hidx : Function.Injective (idx 0)) (hp : ∀ e, 0 ≤ p e ∧ p e ≤ 1) {ε : ℝ} (hε : 0 ≤ ε) :
    draws.real {u | ε ≤ |((successes idx p u 0).card : ℝ) - ∑ e, p e|} ≤ 2 * Real.exp (-(2 * ε ^ 2) / Fintype.card ι) := by
  have hsub : ∀ e, ProbabilityTheory.HasSubgaussianMGF (fun u => hit (idx 0) p e u - p e) ((‖(1 : ℝ) - 0‖₊ / 2) ^ 2) draws := by
    intro e
    have := ProbabilityTheory.hasSubgaussianMGF_of_mem_Icc (μ := draws) (hit_measurable (idx 0) p e).aemeasurable (.of_forall fun u => hit_mem (idx 0) p e u)
    rwa [hit_integral _ _ hp] at this
  have hind : ProbabilityTheory.iIndepFun (fun e u => hit (idx 0) p e u - p e) draws :=
    (hit_indep (idx 0) hidx p).comp (fun e t => t - p e) fun e => by fun_prop
  have hind' : ProbabilityTheory.iIndepFun (fun e u => -(hit (idx 0) p e u - p e)) draws :=
    hind.comp (fun e t => -t) fun e => by fun_prop
  have h1 := ProbabilityTheory.HasSubgaussianMGF.measure_sum_ge_le_of_iIndepFun hind (s := Finset.univ) (fun e _ => hsub e) hε
  have h2 := ProbabilityTheory.HasSubgaussianMGF.measure_sum_ge_le_of_iIndepFun hind' (s := Finset.univ) (fun e _ => (hsub e).neg) hε
  have hc : -ε ^ 2 / (2 * ∑ e : ι, (((‖(1 : ℝ) - 0‖₊ / 2) ^ 2 : ℝ≥0) : ℝ)) = -(2 * ε ^ 2) / Fintype.card ι := by
    rw [Finset.sum_const, Finset.card_univ, nsmul_eq_mul]
    simp only [sub_zero, nnnorm_one, NNReal.coe_pow, NNReal.coe_div, NNReal.coe_one, NNReal.coe_ofNat]
    rcases eq_or_ne (Fintype.card ι : ℝ) 0 with h0 | h0
    · rw [h0]; simp
    · field_simp
  simp only [NNReal.coe_sum] at h1 h2
  rw [hc] at h1 h2
  have hset : {u : ℕ → ℝ | ε ≤ |((successes idx p u 0).card : ℝ) - ∑ e, p e|} ⊆
      {u | ε ≤ ∑ e, (hit (idx 0) p e u - p e)} ∪ {u | ε ≤ ∑ e, -(hit (idx 0) p e u - p e)} := by
    intro u hu
    simp only [Set.mem_setOf_eq, card_successes, ← Finset.sum_sub_distrib] at hu
    rcases le_abs.1 hu with h | h
    · exact .inl h
    · right
      rw [← Finset.sum_neg_distrib] at h
      exact h
  calc _ ≤ draws.real _ := measureReal_mono hset
    _ ≤ _ := measureReal_union_le _ _
    _ ≤ _ := by linarith

end

end Random

end PyGSP
