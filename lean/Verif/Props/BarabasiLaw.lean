import Verif.Lemmas.Attach
import Verif.Props.Barabasi
import Mathlib.MeasureTheory.Integral.Bochner.Basic

/-!
# C137: the distribution of `BarabasiAlbert(N, m0, 1)`
-/

namespace PyGSP

open Matrix Spec Gen Random MeasureTheory

variable {N : ℕ}

namespace Spec

open Classical in
/-- The graph where every vertex `i ≥ m0` is attached to `π i`. -/
noncomputable def attached (m0 : ℕ) (π : Fin N → Fin N) : Matrix (Fin N) (Fin N) ℝ :=
  Matrix.of fun a b => if (m0 ≤ a.1 ∧ π a = b) ∨ (m0 ≤ b.1 ∧ π b = a) then 1 else 0

open Classical in
/-- The number of neighbours of `v` among the vertices before `i`. -/
noncomputable def degreeBefore (A : Matrix (Fin N) (Fin N) ℝ) (i v : Fin N) : ℕ := (Finset.univ.filter fun w => w < i ∧ A v w ≠ 0).card

end Spec

namespace Attach

/-- the probabilities at the vertex `i`, from the degrees -/
noncomputable def P (m0 i : ℕ) (y : Fin N → ℝ) (v : Fin N) : ℝ := if v.1 < i then (y v + 1) / (2 * (i - m0 : ℕ) + i) else 0

open Classical in
/-- the degrees before the vertex `i` is added -/
noncomputable def X (m0 : ℕ) (u : ℕ → ℝ) : ℕ → Fin N → ℝ
  | 0 => 0
  | i + 1 => fun v => X m0 u i v + if m0 ≤ i then (if v ∈ pickOne (u i) (P m0 i (X m0 u i)) then 1 else 0) + (if v.1 = i then 1 else 0) else 0

theorem X_succ (m0 : ℕ) (u : ℕ → ℝ) (i : ℕ) (v : Fin N) :
    X m0 u (i + 1) v = X m0 u i v + open Classical in if m0 ≤ i then (if v ∈ pickOne (u i) (P m0 i (X m0 u i)) then 1 else 0) + (if v.1 = i then 1 else 0) else 0 := rfl

theorem X_nonneg (m0 : ℕ) (u : ℕ → ℝ) (i : ℕ) (v : Fin N) : 0 ≤ X m0 u i v := by
  induction i with
  | zero => exact le_rfl
  | succ i ih =>
    rw [X_succ]
    split_ifs <;> linarith

theorem P_nonneg {m0 i : ℕ} {y : Fin N → ℝ} (hy : ∀ v, 0 ≤ y v) (v : Fin N) : 0 ≤ P m0 i y v := by
  unfold P
  split
  · have := hy v
    positivity
  · exact le_rfl

theorem not_picked {m0 i : ℕ} (x : ℝ) (y : Fin N → ℝ) {v : Fin N} (hv : i ≤ v.1) : v ∉ pickOne x (P m0 i y) := by
  intro h
  rw [mem_pickOne] at h
  have : P m0 i y v = 0 := if_neg (by omega)
  rw [this] at h
  linarith [h.1, h.2]

theorem X_future (m0 : ℕ) (u : ℕ → ℝ) {i : ℕ} {v : Fin N} (hv : i ≤ v.1) : X m0 u i v = 0 := by
  induction i with
  | zero => rfl
  | succ i ih =>
    rw [X_succ, ih (by omega)]
    simp only [not_picked _ _ (show i ≤ v.1 by omega), if_false, show ¬ v.1 = i by omega, add_zero, ite_self]

theorem X_sum (m0 : ℕ) (u : ℕ → ℝ) (i : ℕ) : ∑ v : Fin N, X m0 u i v ≤ 2 * (i - m0 : ℕ) := by
  classical
  induction i with
  | zero => simp [X]
  | succ i ih =>
    simp only [X_succ]
    rw [Finset.sum_add_distrib]
    by_cases hi : m0 ≤ i
    · simp only [hi, if_true]
      rw [Finset.sum_add_distrib]
      have h1 : ∑ v : Fin N, (if v ∈ pickOne (u i) (P m0 i (X m0 u i)) then (1 : ℝ) else 0) ≤ 1 := by
        rw [Finset.sum_ite, Finset.sum_const_zero, add_zero, Finset.sum_const, nsmul_eq_mul, mul_one]
        have : (Finset.univ.filter fun v : Fin N => v ∈ pickOne (u i) (P m0 i (X m0 u i))).card ≤ 1 := by
          refine Finset.card_le_one.mpr fun a ha b hb => ?_
          exact pickOne_unique (fun v => P_nonneg (X_nonneg m0 u i) v) (Finset.mem_filter.mp ha).2 (Finset.mem_filter.mp hb).2
        exact_mod_cast this
      have h2 : ∑ v : Fin N, (if v.1 = i then (1 : ℝ) else 0) ≤ 1 := by
        rw [Finset.sum_ite, Finset.sum_const_zero, add_zero, Finset.sum_const, nsmul_eq_mul, mul_one]
        have : (Finset.univ.filter fun v : Fin N => v.1 = i).card ≤ 1 := by
          refine Finset.card_le_one.mpr fun a ha b hb => ?_
          exact Fin.ext ((Finset.mem_filter.mp ha).2.trans (Finset.mem_filter.mp hb).2.symm)
        exact_mod_cast this
      have h3 : ((i + 1 - m0 : ℕ) : ℝ) = (i - m0 : ℕ) + 1 := by
        rw [show i + 1 - m0 = (i - m0) + 1 by omega]
        push_cast
        ring
      rw [h3]
      linarith
    · simp only [hi, if_false, Finset.sum_const_zero, add_zero]
      refine ih.trans ?_
      have : ((i - m0 : ℕ) : ℝ) ≤ (i + 1 - m0 : ℕ) := by exact_mod_cast (by omega : i - m0 ≤ i + 1 - m0)
      linarith

theorem P_sum (m0 : ℕ) (u : ℕ → ℝ) {i : ℕ} (hi : 0 < i) : ∑ v : Fin N, P m0 i (X m0 u i) v ≤ 1 := by
  have hpos : (0 : ℝ) < 2 * (i - m0 : ℕ) + i := by
    have : (0 : ℝ) < i := by exact_mod_cast hi
    positivity
  unfold P
  rw [← Finset.sum_filter, ← Finset.sum_div, div_le_one hpos, Finset.sum_add_distrib, Finset.sum_const, nsmul_eq_mul, mul_one]
  have h1 : ∑ v : Fin N with v.1 < i, X m0 u i v ≤ 2 * (i - m0 : ℕ) :=
    (Finset.sum_le_sum_of_subset_of_nonneg (Finset.subset_univ _) fun v _ _ => X_nonneg m0 u i v).trans (X_sum m0 u i)
  have h2 : (Finset.univ.filter fun v : Fin N => v.1 < i).card ≤ i := by
    have := Finset.card_le_card_of_injOn (s := Finset.univ.filter fun v : Fin N => v.1 < i) (t := Finset.range i) (fun v => v.1)
      (fun v hv => by simpa using hv) (fun a _ b _ e => Fin.ext e)
    rwa [Finset.card_range] at this
  have h3 : ((Finset.univ.filter fun v : Fin N => v.1 < i).card : ℝ) ≤ i := by exact_mod_cast h2
  linarith

theorem X_dep (m0 : ℕ) {u u' : ℕ → ℝ} {i : ℕ} (h : ∀ j < i, u j = u' j) : (X m0 u i : Fin N → ℝ) = X m0 u' i := by
  induction i with
  | zero => rfl
  | succ i ih =>
    have e := ih fun j hj => h j (by omega)
    funext v
    rw [X_succ, X_succ, e, h i (by omega)]

theorem measurable_P (m0 i : ℕ) (v : Fin N) : Measurable fun y : Fin N → ℝ => P m0 i y v := by
  unfold P
  split
  · exact ((measurable_pi_apply v).add_const 1).div_const _
  · exact measurable_const

/-- the slice of `v` -/
def slice (m0 i : ℕ) (v : Fin N) : Set ((Fin N → ℝ) × ℝ) := {q | v ∈ pickOne q.2 (P m0 i q.1)}

theorem measurable_slice (m0 i : ℕ) (v : Fin N) : MeasurableSet (slice m0 i v) := by
  have e : slice m0 i v = {q : (Fin N → ℝ) × ℝ | below (P m0 i q.1) v ≤ q.2} ∩ {q | q.2 < below (P m0 i q.1) v + P m0 i q.1 v} := by
    ext q
    exact mem_pickOne
  have hb : Measurable fun q : (Fin N → ℝ) × ℝ => below (P m0 i q.1) v := by
    unfold below
    exact Finset.measurable_sum _ fun w _ => (measurable_P m0 i w).comp measurable_fst
  have hp : Measurable fun q : (Fin N → ℝ) × ℝ => P m0 i q.1 v := (measurable_P m0 i v).comp measurable_fst
  rw [e]
  exact (measurableSet_le hb measurable_snd).inter (measurableSet_lt measurable_snd (hb.add hp))

theorem measurable_X (m0 i : ℕ) : Measurable fun u : ℕ → ℝ => (X m0 u i : Fin N → ℝ) := by
  classical
  induction i with
  | zero => exact measurable_const
  | succ i ih =>
    refine measurable_pi_lambda _ fun v => ?_
    simp only [X_succ]
    refine ((measurable_pi_apply v).comp ih).add ?_
    by_cases hi : m0 ≤ i
    · simp only [hi, if_true]
      refine Measurable.add (Measurable.ite ?_ measurable_const measurable_const) measurable_const
      exact (ih.prodMk (measurable_pi_apply i)) (measurable_slice m0 i v)
    · simp only [hi, if_false]
      exact measurable_const

theorem X_le (m0 : ℕ) (u : ℕ → ℝ) (i : ℕ) (v : Fin N) : X m0 u i v ≤ 2 * (i - m0 : ℕ) :=
  (Finset.single_le_sum (fun w _ => X_nonneg m0 u i w) (Finset.mem_univ v)).trans (X_sum m0 u i)

theorem integrable_X (m0 i : ℕ) (v : Fin N) : Integrable (fun u => X m0 u i v) draws := by
  refine Integrable.of_bound ((measurable_pi_apply v).comp (measurable_X m0 i)).aestronglyMeasurable (2 * (i - m0 : ℕ)) ?_
  refine Filter.Eventually.of_forall fun u => ?_
  rw [Real.norm_eq_abs, abs_of_nonneg (X_nonneg m0 u i v)]
  exact X_le m0 u i v

/-- the probability that `v` is chosen is the mean of its probability -/
theorem chosen (m0 : ℕ) {i : ℕ} (hi : 0 < i) (v : Fin N) :
    draws.real {u | v ∈ pickOne (u i) (P m0 i (X m0 u i))} = ∫ u, P m0 i (X m0 u i) v ∂draws := by
  have h := draw_next (measurable_X (N := N) m0 i) (fun u u' hu => X_dep m0 hu) (measurable_slice m0 i v)
  have e : ∀ u : ℕ → ℝ, uniform {x | (X m0 u i, x) ∈ slice m0 i v} = ENNReal.ofReal (P m0 i (X m0 u i) v) := by
    intro u
    have hn := fun w : Fin N => P_nonneg (m0 := m0) (i := i) (X_nonneg m0 u i) w
    rw [← uniform_slice (below_nonneg hn v) ((below_le hn v).trans (P_sum m0 u hi))]
    congr 1
    ext x
    exact mem_pickOne
  simp only [e] at h
  have h' : draws {u | v ∈ pickOne (u i) (P m0 i (X m0 u i))} = ∫⁻ u, ENNReal.ofReal (P m0 i (X m0 u i) v) ∂draws := h
  rw [Measure.real, h', ← integral_eq_lintegral_of_nonneg_ae]
  · exact Filter.Eventually.of_forall fun u => P_nonneg (X_nonneg m0 u i) v
  · exact ((measurable_P m0 i v).comp (measurable_X m0 i)).aestronglyMeasurable

theorem mean_step (m0 : ℕ) {i : ℕ} (hi : 0 < i) (hm : m0 ≤ i) {v : Fin N} (hv : v.1 < i) :
    ∫ u, X m0 u (i + 1) v ∂draws + 1 = (∫ u, X m0 u i v ∂draws + 1) * (1 + 1 / (2 * (i - m0 : ℕ) + i)) := by
  classical
  have hset : MeasurableSet {u : ℕ → ℝ | v ∈ pickOne (u i) (P m0 i (X m0 u i))} :=
    ((measurable_X m0 i).prodMk (measurable_pi_apply i)) (measurable_slice m0 i v)
  have e1 : ∀ u : ℕ → ℝ, X m0 u (i + 1) v = X m0 u i v + {u : ℕ → ℝ | v ∈ pickOne (u i) (P m0 i (X m0 u i))}.indicator 1 u := by
    intro u
    rw [X_succ]
    simp only [hm, if_true, show ¬ v.1 = i by omega, if_false, add_zero, Set.indicator_apply, Set.mem_setOf_eq, Pi.one_apply]
  simp only [e1]
  have hind : Integrable ({u : ℕ → ℝ | v ∈ pickOne (u i) (P m0 i (X m0 u i))}.indicator (1 : (ℕ → ℝ) → ℝ)) draws :=
    (integrable_const (1 : ℝ)).indicator hset
  rw [integral_add (integrable_X m0 i v) hind, integral_indicator_one hset, chosen m0 hi v]
  have e2 : ∀ u : ℕ → ℝ, P m0 i (X m0 u i) v = (X m0 u i v + 1) * (1 / (2 * (i - m0 : ℕ) + i)) := by
    intro u
    unfold P
    rw [if_pos hv]
    ring
  simp only [e2]
  rw [integral_mul_const, integral_add (integrable_X m0 i v) (integrable_const _)]
  simp
  ring

theorem mean_from (m0 : ℕ) {t : ℕ} (ht : 0 < t) (hm : m0 ≤ t) {v : Fin N} (hv : v.1 < t) {n : ℕ} (hn : t ≤ n) :
    ∫ u, X m0 u n v ∂draws + 1 = (∫ u, X m0 u t v ∂draws + 1) * ∏ i ∈ Finset.Ico t n, (1 + 1 / (2 * ((i - m0 : ℕ) : ℝ) + i)) := by
  induction n, hn using Nat.le_induction with
  | base => simp
  | succ n hn ih =>
    rw [mean_step m0 (by omega) (by omega) (by omega), ih, Finset.prod_Ico_succ_top hn]
    ring

theorem X_arrival (m0 : ℕ) (u : ℕ → ℝ) {v : Fin N} (hv : m0 ≤ v.1) : X m0 u (v.1 + 1) v = 1 := by
  rw [X_succ, X_future m0 u le_rfl]
  simp [hv, not_picked _ _ (le_refl v.1)]

theorem X_initial (m0 : ℕ) (u : ℕ → ℝ) {i : ℕ} (hi : i ≤ m0) (v : Fin N) : X m0 u i v = 0 := by
  induction i with
  | zero => rfl
  | succ i ih =>
    rw [X_succ, ih (by omega)]
    simp [show ¬ m0 ≤ i by omega]

open Classical in
/-- the process is the sequence of the degrees in the graph -/
theorem X_graph {m0 : ℕ} (h0 : 1 ≤ m0) {u : ℕ → ℝ} (hu : ∀ i, 0 ≤ u i ∧ u i < 1) {lt : LapType} (hlt : lt = .combinatorial ∨ lt = .normalized) {g : Graph N ℝ}
    (hg : barabasiAlbert N m0 1 (fun i p => pickOne (u i) p) lt = .ok g) {i : ℕ} (hi : i ≤ N) {v : Fin N} (hv : v.1 < i) :
    X m0 u i v = ((Finset.univ.filter fun w : Fin N => w.1 < i ∧ g.W.dense v w ≠ 0).card : ℝ) := by
  have hc := choiceSpec_pickOne (N := N) hu
  obtain ⟨g', hg', -, hsym, hbin, hloop, -, hinit, hone, -⟩ := C75_structure h0 h0 hc hlt
  rw [hg] at hg'
  obtain rfl := Except.ok.inj hg'
  have hatt := C75_attachment h0 h0 hc hg
  induction i generalizing v with
  | zero => omega
  | succ i ih =>
    have hsplit : ((Finset.univ.filter fun w : Fin N => w.1 < i + 1 ∧ g.W.dense v w ≠ 0).card : ℝ) =
        ((Finset.univ.filter fun w : Fin N => w.1 < i ∧ g.W.dense v w ≠ 0).card : ℝ) + if g.W.dense v ⟨i, by omega⟩ ≠ 0 then 1 else 0 := by
      have e : (Finset.univ.filter fun w : Fin N => w.1 < i + 1 ∧ g.W.dense v w ≠ 0) =
          (Finset.univ.filter fun w : Fin N => w.1 < i ∧ g.W.dense v w ≠ 0) ∪ (if g.W.dense v ⟨i, by omega⟩ ≠ 0 then {⟨i, by omega⟩} else ∅) := by
        ext w
        simp only [Finset.mem_filter, Finset.mem_univ, true_and, Finset.mem_union]
        constructor
        · rintro ⟨h1, h2⟩
          by_cases hw : w.1 < i
          · exact .inl ⟨hw, h2⟩
          · have hwe : w = (⟨i, hi⟩ : Fin N) := Fin.ext (by show w.1 = i; omega)
            rw [hwe] at h2 ⊢
            rw [if_pos h2]
            exact .inr (Finset.mem_singleton_self _)
        · rintro (⟨h1, h2⟩ | h)
          · exact ⟨by omega, h2⟩
          · split at h
            · rename_i h2
              obtain rfl := Finset.mem_singleton.mp h
              exact ⟨Nat.lt_succ_self i, h2⟩
            · simp at h
      rw [e, Finset.card_union_of_disjoint]
      · split <;> simp
      · split
        · rw [Finset.disjoint_singleton_right]
          simp
        · simp
    rw [hsplit, X_succ]
    have hsymm : ∀ a b, g.W.dense a b = g.W.dense b a := fun a b => (hsym a b)
    by_cases hm : m0 ≤ i
    · simp only [hm, if_true]
      by_cases hvi : v.1 = i
      · have e1 : (⟨i, by omega⟩ : Fin N) = v := Fin.ext hvi.symm
        rw [e1, hloop v, X_future m0 u (by omega)]
        have h1 := hone v (by omega)
        have e2 : (Finset.univ.filter fun w : Fin N => w.1 < i ∧ g.W.dense v w ≠ 0) = Finset.univ.filter fun w => w < v ∧ g.W.dense v w ≠ 0 := by
          ext w
          simp only [Finset.mem_filter, Finset.mem_univ, true_and, Fin.lt_def, hvi]
        rw [e2, h1]
        simp [not_picked _ _ (show i ≤ v.1 by omega), hvi]
      · have hvi' : v.1 < i := by omega
        rw [ih (by omega) hvi']
        obtain ⟨p, hp, hw⟩ := hatt ⟨i, by omega⟩ hm
        have hpe : p = P m0 i (X m0 u i) := by
          funext w
          rw [hp w]
          unfold P
          have hiff : w < (⟨i, by omega⟩ : Fin N) ↔ w.1 < i := Iff.rfl
          by_cases hwi : w.1 < i
          · rw [if_pos (hiff.mpr hwi), if_pos hwi, ih (by omega) hwi]
            simp only [Nat.cast_one, mul_one]
            rfl
          · rw [if_neg (fun h => hwi (hiff.mp h)), if_neg hwi]
        have hvw := hw v hvi'
        rw [hpe] at hvw
        rw [hsymm v, hvw]
        congr 1
        simp only [hvi, if_false, add_zero]
        by_cases hpk : v ∈ pickOne (u i) (P m0 i (X m0 u i))
        · simp [hpk]
        · simp [hpk]
    · simp only [hm, if_false]
      have hz : g.W.dense v ⟨i, by omega⟩ = 0 := hinit v ⟨i, by omega⟩ (by omega) (by show i < m0; omega)
      rw [hz]
      rw [X_initial m0 u (by omega)]
      have : (Finset.univ.filter fun w : Fin N => w.1 < i ∧ g.W.dense v w ≠ 0) = ∅ := by
        ext w
        simp only [Finset.mem_filter, Finset.mem_univ, true_and, Finset.notMem_empty, iff_false, not_and, not_not]
        intro hw
        exact hinit v w (by omega) (by omega)
      rw [this]
      simp

theorem returns {m0 : ℕ} (h0 : 1 ≤ m0) {u : ℕ → ℝ} (hu : ∀ i, 0 ≤ u i ∧ u i < 1) {lt : LapType} (hlt : lt = .combinatorial ∨ lt = .normalized) :
    ∃ g, barabasiAlbert N m0 1 (fun i p => pickOne (u i) p) lt = .ok g := by
  obtain ⟨g, hg, -⟩ := C75_structure h0 h0 (choiceSpec_pickOne (N := N) hu) hlt
  exact ⟨g, hg⟩

theorem denominator {m0 i : ℕ} (h : m0 ≤ i) : (2 * ((i - m0 : ℕ) : ℝ) + i) = 3 * i - 2 * m0 := by
  rw [Nat.cast_sub h]
  ring

/-! ### The whole distribution -/

theorem attached_lt {m0 : ℕ} {π : Fin N → Fin N} (hπ : ∀ i, m0 ≤ i.1 → π i < i) {i v : Fin N} (hv : v < i) : attached m0 π i v = if m0 ≤ i.1 ∧ π i = v then 1 else 0 := by
  unfold attached
  rw [Matrix.of_apply]
  have : ¬ (m0 ≤ v.1 ∧ π v = i) := by
    rintro ⟨h1, h2⟩
    have := hπ v h1
    omega
  simp only [this, or_false]

theorem attached_symm (m0 : ℕ) (π : Fin N → Fin N) (a b : Fin N) : attached m0 π a b = attached m0 π b a := by
  unfold attached
  simp only [Matrix.of_apply]
  congr 1
  rw [or_comm]

theorem attached_loop {m0 : ℕ} {π : Fin N → Fin N} (hπ : ∀ i, m0 ≤ i.1 → π i < i) (i : Fin N) : attached m0 π i i = 0 := by
  unfold attached
  rw [Matrix.of_apply, if_neg]
  rintro (⟨h1, h2⟩ | ⟨h1, h2⟩) <;> exact absurd h2 (hπ i h1).ne

/-- the probabilities at the vertex `i`, from the graph -/
noncomputable def Q (m0 : ℕ) (A : Matrix (Fin N) (Fin N) ℝ) (i v : Fin N) : ℝ := if v < i then ((degreeBefore A i v : ℝ) + 1) / (2 * (i.1 - m0 : ℕ) + i.1) else 0

theorem Q_nonneg (m0 : ℕ) (A : Matrix (Fin N) (Fin N) ℝ) (i v : Fin N) : 0 ≤ Q m0 A i v := by
  unfold Q
  split <;> positivity

theorem degrees_sum (m0 : ℕ) (π : Fin N → Fin N) (i : Fin N) : ∑ v with v < i, (degreeBefore (attached m0 π) i v : ℝ) ≤ 2 * (i.1 - m0 : ℕ) := by
  classical
  have h1 : ∀ v, (degreeBefore (attached m0 π) i v : ℝ) = ∑ w, if w < i ∧ attached m0 π v w ≠ 0 then 1 else 0 := by
    intro v
    unfold degreeBefore
    rw [Finset.sum_ite, Finset.sum_const_zero, add_zero, Finset.sum_const, nsmul_eq_mul, mul_one]
  have h2 : ∀ v w, v < i → (if w < i ∧ attached m0 π v w ≠ 0 then (1 : ℝ) else 0) ≤
      (if (m0 ≤ v.1 ∧ v < i) ∧ π v = w then 1 else 0) + if (m0 ≤ w.1 ∧ w < i) ∧ π w = v then 1 else 0 := by
    intro v w hv
    by_cases h : w < i ∧ attached m0 π v w ≠ 0
    · rw [if_pos h]
      obtain ⟨hw, ha⟩ := h
      unfold attached at ha
      rw [Matrix.of_apply] at ha
      have : (m0 ≤ v.1 ∧ π v = w) ∨ (m0 ≤ w.1 ∧ π w = v) := by
        by_contra hn
        exact ha (if_neg hn)
      rcases this with ⟨a, b⟩ | ⟨a, b⟩
      · rw [if_pos ⟨⟨a, hv⟩, b⟩]
        split_ifs <;> norm_num
      · rw [if_pos (⟨⟨a, hw⟩, b⟩ : (m0 ≤ w.1 ∧ w < i) ∧ π w = v)]
        split_ifs <;> norm_num
    · rw [if_neg h]
      split_ifs <;> norm_num
  have h3 : ∑ v : Fin N, (if m0 ≤ v.1 ∧ v < i then (1 : ℝ) else 0) ≤ (i.1 - m0 : ℕ) := by
    rw [Finset.sum_ite, Finset.sum_const_zero, add_zero, Finset.sum_const, nsmul_eq_mul, mul_one]
    have := Finset.card_le_card_of_injOn (s := Finset.univ.filter fun v : Fin N => m0 ≤ v.1 ∧ v < i) (t := Finset.Ico m0 i.1) (fun v => v.1)
      (fun v hv => by simpa using hv) (fun a _ b _ e => Fin.ext e)
    rw [Nat.card_Ico] at this
    exact_mod_cast this
  have h4 : ∀ (p : Fin N → Prop) [DecidablePred p], ∑ v, ∑ w, (if p v ∧ π v = w then (1 : ℝ) else 0) = ∑ v, if p v then 1 else 0 := by
    intro p _
    refine Finset.sum_congr rfl fun v _ => ?_
    by_cases hp : p v
    · simp [hp]
    · simp [hp]
  calc ∑ v with v < i, (degreeBefore (attached m0 π) i v : ℝ)
      ≤ ∑ v with v < i, ∑ w, ((if (m0 ≤ v.1 ∧ v < i) ∧ π v = w then (1 : ℝ) else 0) + if (m0 ≤ w.1 ∧ w < i) ∧ π w = v then 1 else 0) := by
        refine Finset.sum_le_sum fun v hv => ?_
        rw [h1]
        exact Finset.sum_le_sum fun w _ => h2 v w (Finset.mem_filter.mp hv).2
    _ ≤ ∑ v, ∑ w, ((if (m0 ≤ v.1 ∧ v < i) ∧ π v = w then (1 : ℝ) else 0) + if (m0 ≤ w.1 ∧ w < i) ∧ π w = v then 1 else 0) := by
        refine Finset.sum_le_sum_of_subset_of_nonneg (Finset.subset_univ _) fun v _ _ => Finset.sum_nonneg fun w _ => ?_
        split_ifs <;> norm_num
    _ = 2 * ∑ v : Fin N, (if m0 ≤ v.1 ∧ v < i then (1 : ℝ) else 0) := by
        simp only [Finset.sum_add_distrib]
        rw [Finset.sum_comm (f := fun v w => if (m0 ≤ w.1 ∧ w < i) ∧ π w = v then (1 : ℝ) else 0), h4 fun v => m0 ≤ v.1 ∧ v < i]
        ring
    _ ≤ _ := by linarith

theorem Q_sum (m0 : ℕ) (π : Fin N → Fin N) {i : Fin N} (hi : 0 < i.1) : ∑ v, Q m0 (attached m0 π) i v ≤ 1 := by
  have hpos : (0 : ℝ) < 2 * (i.1 - m0 : ℕ) + i.1 := by
    have : (0 : ℝ) < i.1 := by exact_mod_cast hi
    positivity
  unfold Q
  rw [← Finset.sum_filter, ← Finset.sum_div, div_le_one hpos, Finset.sum_add_distrib, Finset.sum_const, nsmul_eq_mul, mul_one]
  have h1 := degrees_sum m0 π i
  have h2 : (Finset.univ.filter fun v : Fin N => v < i).card ≤ i.1 := by
    have := Finset.card_le_card_of_injOn (s := Finset.univ.filter fun v : Fin N => v < i) (t := Finset.range i.1) (fun v => v.1)
      (fun v hv => by simpa using hv) (fun a _ b _ e => Fin.ext e)
    rwa [Finset.card_range] at this
  have h3 : ((Finset.univ.filter fun v : Fin N => v < i).card : ℝ) ≤ i.1 := by exact_mod_cast h2
  linarith

/-- the graph made is the given one exactly when every vertex chooses as given -/
theorem outcome {m0 : ℕ} (h0 : 1 ≤ m0) {u : ℕ → ℝ} (hu : ∀ i, 0 ≤ u i ∧ u i < 1) {lt : LapType} (hlt : lt = .combinatorial ∨ lt = .normalized) {g : Graph N ℝ}
    (hg : barabasiAlbert N m0 1 (fun i p => pickOne (u i) p) lt = .ok g) {π : Fin N → Fin N} (hπ : ∀ i, m0 ≤ i.1 → π i < i) :
    g.W.dense = attached m0 π ↔ ∀ i : Fin N, m0 ≤ i.1 → π i ∈ pickOne (u i) (Q m0 (attached m0 π) i) := by
  classical
  have hc := choiceSpec_pickOne (N := N) hu
  obtain ⟨g', hg', -, hsym, hbin, hloop, -, hinit, hone, -⟩ := C75_structure h0 h0 hc hlt
  rw [hg] at hg'
  obtain rfl := Except.ok.inj hg'
  have hatt := C75_attachment h0 h0 hc hg
  have hpe : ∀ (i : Fin N) (p : Fin N → ℝ), (∀ v, p v = if v < i then (((Finset.univ.filter fun u => u < i ∧ g.W.dense v u ≠ 0).card : ℝ) + 1) / (2 * (1 : ℕ) * (i.1 - m0 : ℕ) + i.1) else 0) →
      (∀ v < i, ∀ w < i, g.W.dense v w = attached m0 π v w) → p = Q m0 (attached m0 π) i := by
    intro i p hp hA
    funext v
    rw [hp]
    unfold Q
    by_cases hv : v < i
    · rw [if_pos hv, if_pos hv]
      have : (Finset.univ.filter fun u => u < i ∧ g.W.dense v u ≠ 0).card = degreeBefore (attached m0 π) i v := by
        unfold degreeBefore
        congr 1
        ext w
        simp only [Finset.mem_filter, Finset.mem_univ, true_and]
        constructor
        · rintro ⟨a, b⟩
          exact ⟨a, by rwa [← hA v hv w a]⟩
        · rintro ⟨a, b⟩
          exact ⟨a, by rwa [hA v hv w a]⟩
      rw [this, Nat.cast_one, mul_one]
    · rw [if_neg hv, if_neg hv]
  constructor
  · intro hA i hi
    obtain ⟨p, hp, hw⟩ := hatt i hi
    have e := hpe i p (fun v => (hp v).trans (by congr!)) fun v _ w _ => by rw [hA]
    have := hw (π i) (hπ i hi)
    rw [hA, attached_lt hπ (hπ i hi), if_pos ⟨hi, rfl⟩, e] at this
    by_contra hn
    rw [if_neg hn] at this
    norm_num at this
  · intro hch
    have key : ∀ t : ℕ, ∀ v w : Fin N, v.1 < t → w.1 < t → g.W.dense v w = attached m0 π v w := by
      intro t
      induction t with
      | zero => intro v w hv; omega
      | succ t ih =>
        have hlast : ∀ i v : Fin N, i.1 = t → v < i → g.W.dense i v = attached m0 π i v := by
          intro i v hi hv
          rw [attached_lt hπ hv]
          by_cases hm : m0 ≤ i.1
          · obtain ⟨p, hp, hw⟩ := hatt i hm
            have e := hpe i p (fun v => (hp v).trans (by congr!)) fun a ha b hb => ih a b (by omega) (by omega)
            rw [hw v hv, e]
            by_cases hpv : π i = v
            · have hmem : v ∈ pickOne (u i) (Q m0 (attached m0 π) i) := by
                rw [← hpv]
                exact hch i hm
              rw [if_pos hmem, if_pos ⟨hm, hpv⟩]
            · have hmem : v ∉ pickOne (u i) (Q m0 (attached m0 π) i) := fun hmem => hpv (pickOne_unique (Q_nonneg m0 _ i) (hch i hm) hmem)
              rw [if_neg hmem, if_neg (by tauto)]
          · rw [if_neg (by tauto)]
            exact hinit i v (by omega) (by omega)
        intro v w hv hw
        rcases lt_trichotomy v w with h | h | h
        · by_cases hwt : w.1 = t
          · rw [hsym v w, hlast w v hwt h, attached_symm]
          · exact ih v w (by omega) (by omega)
        · subst h
          rw [hloop, attached_loop hπ]
        · by_cases hvt : v.1 = t
          · exact hlast v w hvt h
          · exact ih v w (by omega) (by omega)
    ext v w
    exact key N v w v.2 w.2

end Attach

open Attach

section
variable {m0 : ℕ} {lt : LapType} {G : (ℕ → ℝ) → Graph N ℝ}

/-- **C137, expected degrees.**  In `BarabasiAlbert(N, m0, 1)`, every new vertex makes the degree plus one of the older vertices grow, on average, by the factor `1 + 1 / (3 i - 2 m0)`.  The
mean of the degree of every vertex is given by the product of these factors from its arrival on. -/
theorem C137_expected_degree (h0 : 1 ≤ m0) (hlt : lt = .combinatorial ∨ lt = .normalized)
    (hG : ∀ u : ℕ → ℝ, (∀ i, 0 ≤ u i ∧ u i < 1) → barabasiAlbert N m0 1 (fun i p => pickOne (u i) p) lt = .ok (G u)) (v : Fin N) :
    (m0 ≤ v.1 → ∫ u, ∑ w, (G u).W.dense v w ∂draws + 1 = 2 * ∏ i ∈ Finset.Ico (v.1 + 1) N, (1 + 1 / (3 * (i : ℝ) - 2 * m0))) ∧
    (v.1 < m0 → ∫ u, ∑ w, (G u).W.dense v w ∂draws + 1 = ∏ i ∈ Finset.Ico m0 N, (1 + 1 / (3 * (i : ℝ) - 2 * m0))) := by
  classical
  have hae : ∫ u, ∑ w, (G u).W.dense v w ∂draws = ∫ u, X m0 u N v ∂draws := by
    refine integral_congr_ae ?_
    filter_upwards [draws_range] with u hu
    have hg := hG u hu
    obtain ⟨g', hg', -, -, hbin, -⟩ := C75_structure h0 h0 (choiceSpec_pickOne (N := N) hu) hlt
    rw [hg] at hg'
    obtain rfl := Except.ok.inj hg'
    rw [X_graph h0 hu hlt hg le_rfl v.2]
    exact row_sum_card hbin (t := N) (fun a b hb => absurd b.2 (by omega)) v
  have hprod : ∀ t, m0 ≤ t → ∏ i ∈ Finset.Ico t N, (1 + 1 / (2 * ((i - m0 : ℕ) : ℝ) + i)) = ∏ i ∈ Finset.Ico t N, (1 + 1 / (3 * (i : ℝ) - 2 * m0)) := by
    intro t ht
    refine Finset.prod_congr rfl fun i hi => ?_
    rw [denominator (ht.trans (Finset.mem_Ico.mp hi).1)]
  rw [hae]
  constructor
  · intro hv
    rw [mean_from m0 (t := v.1 + 1) (by omega) (by omega) (by omega) (by omega), hprod _ (by omega)]
    simp only [X_arrival m0 _ hv]
    simp
    left
    norm_num
  · intro hv
    by_cases hN : m0 ≤ N
    · rw [mean_from m0 (t := m0) (by omega) le_rfl hv hN, hprod _ le_rfl]
      simp only [X_initial m0 _ le_rfl]
      simp
    · rw [Finset.Ico_eq_empty (by omega), Finset.prod_empty]
      simp only [X_initial m0 _ (show N ≤ m0 by omega)]
      simp

/-- **C137, how fast degrees grow.**  The mean degree of vertex `v` grows like the cube root of `N / v` (not the square root, as with probabilities proportional to the degrees). -/
theorem C137_growth (h0 : 1 ≤ m0) (hlt : lt = .combinatorial ∨ lt = .normalized)
    (hG : ∀ u : ℕ → ℝ, (∀ i, 0 ≤ u i ∧ u i < 1) → barabasiAlbert N m0 1 (fun i p => pickOne (u i) p) lt = .ok (G u)) {v : Fin N} (hv : m0 ≤ v.1) :
    8 * ((3 * N - 2 * m0) / (3 * v.1 + 3 - 2 * m0)) ≤ (∫ u, ∑ w, (G u).W.dense v w ∂draws + 1) ^ 3 ∧
      (∫ u, ∑ w, (G u).W.dense v w ∂draws + 1) ^ 3 ≤ 8 * ((3 * N - 2 * m0 - 2) / (3 * v.1 + 1 - 2 * m0)) := by
  rw [(C137_expected_degree h0 hlt hG v).1 hv, mul_pow]
  have hm : (m0 : ℝ) ≤ v.1 := by exact_mod_cast hv
  have hm1 : (1 : ℝ) ≤ m0 := by exact_mod_cast h0
  have key : ∀ n, v.1 + 1 ≤ n →
      (3 * (n : ℝ) - 2 * m0) / (3 * v.1 + 3 - 2 * m0) ≤ (∏ i ∈ Finset.Ico (v.1 + 1) n, (1 + 1 / (3 * (i : ℝ) - 2 * m0))) ^ 3 ∧
        (∏ i ∈ Finset.Ico (v.1 + 1) n, (1 + 1 / (3 * (i : ℝ) - 2 * m0))) ^ 3 ≤ (3 * (n : ℝ) - 2 * m0 - 2) / (3 * v.1 + 1 - 2 * m0) := by
    intro n hn
    induction n, hn using Nat.le_induction with
    | base =>
      rw [Finset.Ico_self, Finset.prod_empty, one_pow]
      push_cast
      constructor
      · rw [show 3 * ((v.1 : ℝ) + 1) - 2 * m0 = 3 * v.1 + 3 - 2 * m0 by ring, div_self (by linarith)]
      · rw [show 3 * ((v.1 : ℝ) + 1) - 2 * m0 - 2 = 3 * v.1 + 1 - 2 * m0 by ring, div_self (by linarith)]
    | succ n hn ih =>
      rw [Finset.prod_Ico_succ_top hn, mul_pow]
      have hnv : (v.1 : ℝ) + 1 ≤ n := by exact_mod_cast hn
      set a : ℝ := 3 * (n : ℝ) - 2 * m0 with ha
      have ha4 : 4 ≤ a := by linarith
      have hd1 : (0 : ℝ) < 3 * v.1 + 3 - 2 * m0 := by linarith
      have hd2 : (0 : ℝ) < 3 * v.1 + 1 - 2 * m0 := by linarith
      have e1 : 3 * ((n + 1 : ℕ) : ℝ) - 2 * m0 = a + 3 := by
        push_cast
        rw [ha]
        ring
      rw [e1]
      have hl : (a + 3) / a ≤ (1 + 1 / a) ^ 3 := by
        rw [div_le_iff₀ (by linarith)]
        have : (1 + 1 / a) ^ 3 * a = a + 3 + 3 / a + 1 / a ^ 2 := by
          field_simp
          ring
        rw [this]
        have h1 : 0 ≤ 3 / a := by positivity
        have h2 : 0 ≤ 1 / a ^ 2 := by positivity
        linarith
      have hu : (1 + 1 / a) ^ 3 ≤ (a + 1) / (a - 2) := by
        rw [le_div_iff₀ (by linarith)]
        have : (1 + 1 / a) ^ 3 * (a - 2) = a + 1 - 3 / a - 5 / a ^ 2 - 2 / a ^ 3 := by
          field_simp
          ring
        rw [this]
        have h1 : 0 ≤ 3 / a := by positivity
        have h2 : 0 ≤ 5 / a ^ 2 := by positivity
        have h3 : 0 ≤ 2 / a ^ 3 := by positivity
        linarith
      have hP : 0 ≤ (∏ i ∈ Finset.Ico (v.1 + 1) n, (1 + 1 / (3 * (i : ℝ) - 2 * m0))) ^ 3 := by
        refine le_trans ?_ ih.1
        exact div_nonneg (by linarith) hd1.le
      constructor
      · calc (a + 3) / (3 * v.1 + 3 - 2 * m0) = a / (3 * v.1 + 3 - 2 * m0) * ((a + 3) / a) := by
              field_simp
          _ ≤ _ := mul_le_mul ih.1 hl (by positivity) hP
      · calc _ ≤ (a - 2) / (3 * v.1 + 1 - 2 * m0) * ((a + 1) / (a - 2)) := mul_le_mul ih.2 hu (by positivity) (div_nonneg (by linarith) hd2.le)
          _ = (a + 3 - 2) / (3 * v.1 + 1 - 2 * m0) := by
              have : a - 2 ≠ 0 := by linarith
              field_simp
              ring
  have := key N (by omega)
  constructor <;> linarith [this.1, this.2]

/-- **C137, the older the richer.**  Among the vertices added one by one, the mean degree decreases with the order of arrival, strictly; the `m0` initial vertices have all the same mean degree, at
most that of the first vertex added, and less as soon as there are two of them. -/
theorem C137_older (h0 : 1 ≤ m0) (hlt : lt = .combinatorial ∨ lt = .normalized)
    (hG : ∀ u : ℕ → ℝ, (∀ i, 0 ≤ u i ∧ u i < 1) → barabasiAlbert N m0 1 (fun i p => pickOne (u i) p) lt = .ok (G u)) {v w : Fin N} :
    (m0 ≤ v.1 → v < w → ∫ u, ∑ x, (G u).W.dense w x ∂draws < ∫ u, ∑ x, (G u).W.dense v x ∂draws) ∧
    (v.1 < m0 → w.1 < m0 → ∫ u, ∑ x, (G u).W.dense w x ∂draws = ∫ u, ∑ x, (G u).W.dense v x ∂draws) ∧
    (v.1 < m0 → w.1 = m0 → ∫ u, ∑ x, (G u).W.dense v x ∂draws ≤ ∫ u, ∑ x, (G u).W.dense w x ∂draws ∧
      (2 ≤ m0 → ∫ u, ∑ x, (G u).W.dense v x ∂draws < ∫ u, ∑ x, (G u).W.dense w x ∂draws)) := by
  have hm1 : (1 : ℝ) ≤ m0 := by exact_mod_cast h0
  have hf : ∀ i : ℕ, m0 ≤ i → 0 < 1 / (3 * (i : ℝ) - 2 * m0) := by
    intro i hi
    have : (m0 : ℝ) ≤ i := by exact_mod_cast hi
    exact one_div_pos.mpr (by linarith)
  have hpos : ∀ t n, m0 ≤ t → 0 < ∏ i ∈ Finset.Ico t n, (1 + 1 / (3 * (i : ℝ) - 2 * m0)) := by
    intro t n ht
    refine Finset.prod_pos fun i hi => ?_
    have := hf i (ht.trans (Finset.mem_Ico.mp hi).1)
    linarith
  have hone : ∀ t n, m0 ≤ t → t < n → 1 < ∏ i ∈ Finset.Ico t n, (1 + 1 / (3 * (i : ℝ) - 2 * m0)) := by
    intro t n ht hn
    induction n, hn using Nat.le_induction with
    | base =>
      rw [Nat.succ_eq_add_one, Nat.Ico_succ_singleton, Finset.prod_singleton]
      linarith [hf t ht]
    | succ n hn ih =>
      rw [Finset.prod_Ico_succ_top (by omega)]
      have := hf n (by omega)
      nlinarith
  have hv := C137_expected_degree h0 hlt hG v
  have hw := C137_expected_degree h0 hlt hG w
  refine ⟨fun h1 h2 => ?_, fun h1 h2 => ?_, fun h1 h2 => ?_⟩
  · have a := hv.1 h1
    have b := hw.1 (by omega)
    rw [← Finset.prod_Ico_consecutive _ (show v.1 + 1 ≤ w.1 + 1 by omega) (show w.1 + 1 ≤ N by omega)] at a
    have c := hone (v.1 + 1) (w.1 + 1) (by omega) (by omega)
    have d := hpos (w.1 + 1) N (by omega)
    nlinarith
  · have a := hv.2 h1
    have b := hw.2 h2
    linarith
  · have a := hv.2 h1
    have b := hw.1 h2.ge
    have hNm : m0 < N := by omega
    rw [Finset.prod_eq_prod_Ico_succ_bot hNm] at a
    rw [h2] at b
    have d := hpos (m0 + 1) N (by omega)
    have e : 3 * (m0 : ℝ) - 2 * m0 = m0 := by ring
    rw [e] at a
    constructor
    · have : 1 / (m0 : ℝ) ≤ 1 := (div_le_one (by linarith)).mpr hm1
      nlinarith
    · intro h2'
      have : 1 / (m0 : ℝ) < 1 := (div_lt_one (by linarith)).mpr (by exact_mod_cast (by omega : 1 < m0))
      nlinarith

/-- **C137, the distribution.**  `BarabasiAlbert(N, m0, 1)` attaches every vertex `i ≥ m0` to one earlier vertex `π i`, and the probability that these are the given ones is the product over `i`
of `(1 + degree of π i before i) / (3 i - 2 m0)`. -/
theorem C137_law (h0 : 1 ≤ m0) (hlt : lt = .combinatorial ∨ lt = .normalized)
    (hG : ∀ u : ℕ → ℝ, (∀ i, 0 ≤ u i ∧ u i < 1) → barabasiAlbert N m0 1 (fun i p => pickOne (u i) p) lt = .ok (G u)) :
    (∀ᵐ u ∂draws, ∃ π : Fin N → Fin N, (∀ i, m0 ≤ i.1 → π i < i) ∧ (G u).W.dense = attached m0 π) ∧
    ∀ π : Fin N → Fin N, (∀ i, m0 ≤ i.1 → π i < i) →
      draws {u | (G u).W.dense = attached m0 π} =
        ENNReal.ofReal (∏ i with m0 ≤ i.1, ((degreeBefore (attached m0 π) i (π i) : ℝ) + 1) / (3 * i.1 - 2 * m0)) := by
  classical
  constructor
  · filter_upwards [draws_range] with u hu
    obtain ⟨g', hg', -, hsym, hbin, hloop, -, hinit, hone, -⟩ := C75_structure h0 h0 (choiceSpec_pickOne (N := N) hu) hlt
    rw [hG u hu] at hg'
    obtain rfl := Except.ok.inj hg'
    have hex : ∀ i : Fin N, m0 ≤ i.1 → ∃ a, (Finset.univ.filter fun v => v < i ∧ (G u).W.dense i v ≠ 0) = {a} := fun i hi => Finset.card_eq_one.mp (by
      have := hone i hi
      convert this)
    choose! π hπ using hex
    have hiff : ∀ i : Fin N, m0 ≤ i.1 → ∀ v, (v < i ∧ (G u).W.dense i v ≠ 0) ↔ v = π i := by
      intro i hi v
      have := congrArg (v ∈ ·) (hπ i hi)
      simpa using this
    have hlt' : ∀ i, m0 ≤ i.1 → π i < i := fun i hi => ((hiff i hi (π i)).mpr rfl).1
    refine ⟨π, hlt', ?_⟩
    have hlow : ∀ i v : Fin N, v < i → (G u).W.dense i v = attached m0 π i v := by
      intro i v hv
      rw [attached_lt hlt' hv]
      by_cases hm : m0 ≤ i.1
      · by_cases hpv : π i = v
        · rw [if_pos ⟨hm, hpv⟩]
          exact (hbin i v).resolve_left ((hiff i hm v).mpr hpv.symm).2
        · rw [if_neg (by tauto)]
          by_contra hne
          exact hpv ((hiff i hm v).mp ⟨hv, hne⟩).symm
      · rw [if_neg (by tauto)]
        exact hinit i v (by omega) (by omega)
    ext v w
    rcases lt_trichotomy v w with h | h | h
    · rw [hsym v w, hlow w v h, attached_symm]
    · subst h
      rw [hloop, attached_loop hlt']
    · exact hlow v w h
  · intro π hπ
    set A : Matrix (Fin N) (Fin N) ℝ := attached m0 π with hA
    have hae : draws {u | (G u).W.dense = A} = draws {u : ℕ → ℝ | ∀ i : Fin N, m0 ≤ i.1 → π i ∈ pickOne (u i) (Q m0 A i)} := by
      refine measure_congr ?_
      filter_upwards [draws_range] with u hu
      exact propext (outcome h0 hu hlt (hG u hu) hπ)
    let s : Finset ℕ := Finset.Ico m0 N
    have hset : {u : ℕ → ℝ | ∀ i : Fin N, m0 ≤ i.1 → π i ∈ pickOne (u i) (Q m0 A i)} =
        Set.pi (s : Set ℕ) fun c => {x : ℝ | ∀ i : Fin N, i.1 = c → π i ∈ pickOne x (Q m0 A i)} := by
      ext u
      simp only [Set.mem_setOf_eq, Set.mem_pi, s, Finset.coe_Ico, Set.mem_Ico]
      constructor
      · rintro h c ⟨h1, -⟩ i rfl
        exact h i h1
      · intro h i hi
        exact h i.1 ⟨hi, i.2⟩ i rfl
    have hone : ∀ i : Fin N, {x : ℝ | π i ∈ pickOne x (Q m0 A i)} = {x | below (Q m0 A i) (π i) ≤ x ∧ x < below (Q m0 A i) (π i) + Q m0 A i (π i)} := by
      intro i
      ext x
      exact mem_pickOne
    have hsl : ∀ i : Fin N, {x : ℝ | ∀ j : Fin N, j.1 = i.1 → π j ∈ pickOne x (Q m0 A j)} = {x | π i ∈ pickOne x (Q m0 A i)} := by
      intro i
      ext x
      simp only [Set.mem_setOf_eq]
      constructor
      · intro h
        exact h i rfl
      · intro h j hj
        rw [Fin.ext hj]
        exact h
    have hmeas : ∀ c ∈ s, MeasurableSet {x : ℝ | ∀ i : Fin N, i.1 = c → π i ∈ pickOne x (Q m0 A i)} := by
      intro c hc
      have h := hsl ⟨c, (Finset.mem_Ico.mp hc).2⟩
      simp only at h
      rw [h, hone]
      exact measurableSet_Ico
    rw [hae, hset]
    unfold draws
    rw [Measure.infinitePi_pi _ hmeas, ENNReal.ofReal_prod_of_nonneg]
    · symm
      refine Finset.prod_bij (fun i _ => i.1) ?_ ?_ ?_ ?_
      · intro i hi
        exact Finset.mem_Ico.mpr ⟨(Finset.mem_filter.mp hi).2, i.2⟩
      · intro i _ j _ h
        exact Fin.ext h
      · intro c hc
        obtain ⟨h1, h2⟩ := Finset.mem_Ico.mp hc
        exact ⟨⟨c, h2⟩, Finset.mem_filter.mpr ⟨Finset.mem_univ _, h1⟩, rfl⟩
      · intro i hi
        have hi := (Finset.mem_filter.mp hi).2
        rw [hsl i, hone i, uniform_slice (below_nonneg (Q_nonneg m0 A i) _) ((below_le (Q_nonneg m0 A i) _).trans (Q_sum m0 π (by omega)))]
        congr 1
        unfold Q
        rw [if_pos (hπ i hi), denominator hi]
    · intro i hi
      have hi := (Finset.mem_filter.mp hi).2
      have h1 : (m0 : ℝ) ≤ i.1 := by exact_mod_cast hi
      have h2 : (1 : ℝ) ≤ m0 := by exact_mod_cast h0
      exact div_nonneg (by positivity) (by linarith)

end

/-- the hypotheses are met: three vertices, one initial vertex; the mean degree of vertex 0 is 3/2, the star around it has probability 1/2 -/
example : ∃ G : (ℕ → ℝ) → Graph 3 ℝ,
    (∀ u : ℕ → ℝ, (∀ i, 0 ≤ u i ∧ u i < 1) → barabasiAlbert 3 1 1 (fun i p => pickOne (u i) p) .combinatorial = .ok (G u)) ∧
    ∫ u, ∑ w, (G u).W.dense 0 w ∂draws = 3 / 2 ∧
    draws {u | (G u).W.dense = attached 1 fun _ => 0} = ENNReal.ofReal (1 / 2) := by
  classical
  have hne : Nonempty (Graph 3 ℝ) := ⟨(Attach.returns (N := 3) (m0 := 1) le_rfl (u := fun _ => 0) (fun _ => by norm_num) (.inl rfl)).choose⟩
  have hex : ∀ u : ℕ → ℝ, (∀ i, 0 ≤ u i ∧ u i < 1) → ∃ g : Graph 3 ℝ, barabasiAlbert 3 1 1 (fun i p => pickOne (u i) p) .combinatorial = .ok g :=
    fun u hu => Attach.returns le_rfl hu (.inl rfl)
  choose! G hG using hex
  refine ⟨G, hG, ?_, ?_⟩
  · have h := (C137_expected_degree le_rfl (.inl rfl) hG (0 : Fin 3)).2 (by norm_num)
    rw [show Finset.Ico 1 3 = {1, 2} by decide, Finset.prod_pair (by norm_num)] at h
    norm_num at h
    linarith
  · rw [(C137_law le_rfl (.inl rfl) hG).2 (fun _ => 0) ?_]
    · congr 1
      rw [show (Finset.univ.filter fun i : Fin 3 => 1 ≤ i.1) = {1, 2} by decide, Finset.prod_pair (by decide)]
      have e1 : degreeBefore (attached 1 fun _ : Fin 3 => (0 : Fin 3)) 1 0 = 0 := by
        unfold degreeBefore attached
        rw [Finset.card_eq_zero, Finset.filter_eq_empty_iff]
        intro w _
        fin_cases w <;> simp
      have e2 : degreeBefore (attached 1 fun _ : Fin 3 => (0 : Fin 3)) 2 0 = 1 := by
        unfold degreeBefore attached
        rw [Finset.card_eq_one]
        refine ⟨1, ?_⟩
        ext w
        fin_cases w <;> simp
      rw [e1, e2]
      norm_num
    · intro i hi
      fin_cases i <;> simp at hi ⊢

end PyGSP
