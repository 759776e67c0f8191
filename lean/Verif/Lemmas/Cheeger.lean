import Verif.Lemmas.Laplacian

/-!
# Cuts and the Laplacian: the sweep argument of Cheeger's inequality
-/

namespace PyGSP

open Matrix Spec

variable {n : ℕ}

namespace Spec

/-- The weight between a set of vertices and the others. -/
noncomputable def cut (M : Matrix (Fin n) (Fin n) ℝ) (A : Finset (Fin n)) : ℝ := ∑ i ∈ A, ∑ j ∈ Aᶜ, wsym M i j

end Spec

namespace Cheeger

variable {M : Matrix (Fin n) (Fin n) ℝ}

/-- total variation -/
noncomputable def tv (M : Matrix (Fin n) (Fin n) ℝ) (f : Fin n → ℝ) : ℝ := 1 / 2 * ∑ i, ∑ j, wsym M i j * |f i - f j|

/-- the indicator of a set -/
noncomputable def ind (A : Finset (Fin n)) (i : Fin n) : ℝ := if i ∈ A then 1 else 0

theorem cut_eq (M : Matrix (Fin n) (Fin n) ℝ) (A : Finset (Fin n)) : cut M A = ∑ i, ∑ j, wsym M i j * (ind A i * (1 - ind A j)) := by
  have h1 : ∀ i, ∑ j ∈ Aᶜ, wsym M i j = ∑ j, wsym M i j * (1 - ind A j) := fun i => by
    rw [← Finset.sum_filter_add_sum_filter_not Finset.univ (· ∈ A)]
    rw [Finset.sum_eq_zero (s := Finset.univ.filter (· ∈ A)) fun j hj => by simp [ind, (Finset.mem_filter.1 hj).2], zero_add]
    have : Aᶜ = Finset.univ.filter (¬ · ∈ A) := by ext; simp
    rw [this]
    exact Finset.sum_congr rfl fun j hj => by simp [ind, (Finset.mem_filter.1 hj).2]
  have h2 : ∀ f : Fin n → ℝ, ∑ i ∈ A, f i = ∑ i, ind A i * f i := fun f => by
    simp [ind, Finset.sum_ite_mem]
  unfold cut
  rw [Finset.sum_congr rfl fun i _ => h1 i, h2]
  exact Finset.sum_congr rfl fun i _ => by
    rw [Finset.mul_sum]
    exact Finset.sum_congr rfl fun j _ => by ring

theorem cut_nonneg (hM : NonnegW M) (A : Finset (Fin n)) : 0 ≤ cut M A :=
  Finset.sum_nonneg fun i _ => Finset.sum_nonneg fun j _ => by
    unfold wsym
    have := hM i j
    have := hM j i
    linarith

theorem wsym_nonneg' (hM : NonnegW M) (i j : Fin n) : 0 ≤ wsym M i j := by
  unfold wsym
  have := hM i j
  have := hM j i
  linarith

theorem sq_ind (A : Finset (Fin n)) (i j : Fin n) : (ind A i - ind A j) ^ 2 = ind A i * (1 - ind A j) + ind A j * (1 - ind A i) := by
  unfold ind
  split <;> split <;> norm_num

theorem abs_ind (A : Finset (Fin n)) (i j : Fin n) : |ind A i - ind A j| = ind A i * (1 - ind A j) + ind A j * (1 - ind A i) := by
  unfold ind
  split <;> split <;> norm_num

theorem double (M : Matrix (Fin n) (Fin n) ℝ) (A : Finset (Fin n)) :
    1 / 2 * ∑ i, ∑ j, wsym M i j * (ind A i * (1 - ind A j) + ind A j * (1 - ind A i)) = cut M A := by
  have h2 : ∑ i, ∑ j, wsym M i j * (ind A j * (1 - ind A i)) = cut M A := by
    rw [cut_eq, Finset.sum_comm]
    exact Finset.sum_congr rfl fun i _ => Finset.sum_congr rfl fun j _ => by rw [wsym_comm]
  have h1 := cut_eq M A
  simp only [mul_add, Finset.sum_add_distrib] at *
  linarith

theorem dirichlet_ind (M : Matrix (Fin n) (Fin n) ℝ) (A : Finset (Fin n)) : dirichlet M (ind A) = cut M A := by
  rw [dirichlet_wsym, ← double]
  simp only [sq_ind]

theorem tv_ind (M : Matrix (Fin n) (Fin n) ℝ) (A : Finset (Fin n)) : tv M (ind A) = cut M A := by
  rw [← double]
  unfold tv
  simp only [abs_ind]

theorem tv_nonneg (hM : NonnegW M) (f : Fin n → ℝ) : 0 ≤ tv M f :=
  mul_nonneg (by norm_num) (Finset.sum_nonneg fun i _ => Finset.sum_nonneg fun j _ => mul_nonneg (wsym_nonneg' hM i j) (abs_nonneg _))

/-- the co-area inequality: if every level set has a large cut then the total variation is large -/
theorem coarea (hM : NonnegW M) (μ : Fin n → ℝ) (h : ℝ) : ∀ (k : ℕ) (f : Fin n → ℝ), (∀ i, 0 ≤ f i) → (Finset.univ.filter fun i => 0 < f i).card = k →
    (∀ t, 0 < t → (Finset.univ.filter fun i => t ≤ f i).Nonempty →
      h * ∑ i with t ≤ f i, μ i < cut M (Finset.univ.filter fun i => t ≤ f i)) →
    h * ∑ i, μ i * f i ≤ tv M f ∧ ((∃ i, 0 < f i) → h * ∑ i, μ i * f i < tv M f) := by
  intro k
  induction k using Nat.strong_induction_on with
  | _ k ih =>
  intro f hf hk hS
  by_cases hz : ∀ i, f i = 0
  · have h0 : f = 0 := funext hz
    subst h0
    refine ⟨by simpa using tv_nonneg hM 0, fun ⟨i, hi⟩ => by simp at hi⟩
  push Not at hz
  obtain ⟨i0, hi0⟩ := hz
  set A := Finset.univ.filter fun i => 0 < f i with hA
  have hne : A.Nonempty := ⟨i0, Finset.mem_filter.2 ⟨Finset.mem_univ _, lt_of_le_of_ne (hf i0) (Ne.symm hi0)⟩⟩
  obtain ⟨a, haA, hmin⟩ := A.exists_min_image f hne
  have ha : 0 < f a := (Finset.mem_filter.1 haA).2
  have hA' : A = Finset.univ.filter fun i => f a ≤ f i := by
    ext i
    simp only [hA, Finset.mem_filter, Finset.mem_univ, true_and]
    exact ⟨fun hi => hmin i (by simpa [hA] using hi), fun hi => ha.trans_le hi⟩
  let f' : Fin n → ℝ := fun i => f i - f a * ind A i
  have hin : ∀ i, i ∈ A → f' i = f i - f a := fun i hi => by simp [f', ind, hi]
  have hout : ∀ i, i ∉ A → f' i = 0 ∧ f i = 0 := fun i hi => by
    have : f i = 0 := le_antisymm (not_lt.1 fun hh => hi (by simpa [hA] using hh)) (hf i)
    exact ⟨by simp [f', ind, hi, this], this⟩
  have hf' : ∀ i, 0 ≤ f' i := fun i => by
    by_cases hi : i ∈ A
    · rw [hin i hi]; linarith [hmin i hi]
    · rw [(hout i hi).1]
  have hcard : (Finset.univ.filter fun i => 0 < f' i).card < k := by
    rw [← hk]
    refine Finset.card_lt_card ⟨fun i hi => ?_, fun hsub => ?_⟩
    · by_contra hi'
      rw [Finset.mem_filter, (hout i hi').1] at hi
      exact lt_irrefl _ hi.2
    · have := (Finset.mem_filter.1 (hsub haA)).2
      rw [hin a haA] at this
      linarith
  have hlev : ∀ t, 0 < t → (Finset.univ.filter fun i => t ≤ f' i) = Finset.univ.filter fun i => t + f a ≤ f i := fun t ht => by
    ext i
    simp only [Finset.mem_filter, Finset.mem_univ, true_and]
    by_cases hi : i ∈ A
    · rw [hin i hi]
      constructor <;> intro <;> linarith
    · rw [(hout i hi).1, (hout i hi).2]
      constructor <;> intro <;> linarith
  obtain ⟨hle, -⟩ := ih _ hcard f' hf' rfl fun t ht hn => by
    rw [hlev t ht] at hn ⊢
    exact hS _ (by linarith) hn
  have htop := hS (f a) ha (hA' ▸ hne)
  rw [← hA'] at htop
  have hμ : ∑ i, μ i * f i = f a * ∑ i ∈ A, μ i + ∑ i, μ i * f' i := by
    have : ∑ i ∈ A, μ i = ∑ i, μ i * ind A i := by simp [ind, Finset.sum_ite_mem]
    rw [this, Finset.mul_sum, ← Finset.sum_add_distrib]
    exact Finset.sum_congr rfl fun i _ => by simp only [f']; ring
  have htv : tv M f = f a * cut M A + tv M f' := by
    rw [← tv_ind]
    unfold tv
    rw [← mul_assoc, mul_comm (f a), mul_assoc, ← mul_add]
    refine congrArg _ ?_
    rw [Finset.mul_sum, ← Finset.sum_add_distrib]
    refine Finset.sum_congr rfl fun i _ => ?_
    rw [Finset.mul_sum, ← Finset.sum_add_distrib]
    refine Finset.sum_congr rfl fun j _ => ?_
    have : |f i - f j| = f a * |ind A i - ind A j| + |f' i - f' j| := by
      by_cases hi : i ∈ A <;> by_cases hj : j ∈ A
      · rw [hin i hi, hin j hj]; simp [ind, hi, hj]
      · have := hmin i hi
        rw [hin i hi, (hout j hj).1, (hout j hj).2]
        simp only [ind, hi, hj, if_true, if_false, sub_zero, abs_one]
        rw [abs_of_nonneg (hf i), abs_of_nonneg (by linarith)]
        ring
      · have := hmin j hj
        rw [hin j hj, (hout i hi).1, (hout i hi).2]
        simp only [ind, hi, hj, if_true, if_false, zero_sub, abs_neg, abs_one]
        rw [abs_of_nonneg (hf j), abs_of_nonneg (by linarith)]
        ring
      · rw [(hout i hi).1, (hout i hi).2, (hout j hj).1, (hout j hj).2]; simp [ind, hi, hj]
    rw [this]
    ring
  have hlt : h * ∑ i, μ i * f i < tv M f := by
    rw [hμ, htv]
    nlinarith
  exact ⟨hlt.le, fun _ => hlt⟩

/-- the total variation of the square -/
theorem tv_sq_le (hM : NonnegW M) (z : Fin n → ℝ) : tv M (fun i => z i ^ 2) ^ 2 ≤ 2 * dirichlet M z * ∑ i, wdeg M i * z i ^ 2 := by
  have hw := fun i j => wsym_nonneg' hM i j
  have cs := Finset.sum_mul_sq_le_sq_mul_sq (Finset.univ : Finset (Fin n × Fin n)) (fun p => Real.sqrt (wsym M p.1 p.2) * |z p.1 - z p.2|)
    fun p => Real.sqrt (wsym M p.1 p.2) * |z p.1 + z p.2|
  have e1 : ∑ p : Fin n × Fin n, Real.sqrt (wsym M p.1 p.2) * |z p.1 - z p.2| * (Real.sqrt (wsym M p.1 p.2) * |z p.1 + z p.2|) = 2 * tv M fun i => z i ^ 2 := by
    unfold tv
    rw [Fintype.sum_prod_type, ← mul_assoc]
    norm_num
    refine Finset.sum_congr rfl fun i _ => Finset.sum_congr rfl fun j _ => ?_
    have : |z i ^ 2 - z j ^ 2| = |z i - z j| * |z i + z j| := by rw [← abs_mul]; congr 1; ring
    rw [this]
    have := Real.mul_self_sqrt (hw i j)
    linear_combination (|z i - z j| * |z i + z j|) * this
  have e2 : ∑ p : Fin n × Fin n, (Real.sqrt (wsym M p.1 p.2) * |z p.1 - z p.2|) ^ 2 = 2 * dirichlet M z := by
    rw [dirichlet_wsym, Fintype.sum_prod_type, ← mul_assoc]
    norm_num
    refine Finset.sum_congr rfl fun i _ => Finset.sum_congr rfl fun j _ => ?_
    rw [mul_pow, Real.sq_sqrt (hw i j), sq_abs]
  have e3 : ∑ p : Fin n × Fin n, (Real.sqrt (wsym M p.1 p.2) * |z p.1 + z p.2|) ^ 2 ≤ 4 * ∑ i, wdeg M i * z i ^ 2 := by
    have hd : ∀ i, ∑ j, wsym M i j = wdeg M i := sum_wsym M
    have a1 : ∑ i, ∑ j, wsym M i j * z i ^ 2 = ∑ i, wdeg M i * z i ^ 2 := Finset.sum_congr rfl fun i _ => by rw [← Finset.sum_mul, hd]
    have a2 : ∑ i, ∑ j, wsym M i j * z j ^ 2 = ∑ i, wdeg M i * z i ^ 2 := by
      rw [Finset.sum_comm, ← a1]
      exact Finset.sum_congr rfl fun i _ => Finset.sum_congr rfl fun j _ => by rw [wsym_comm]
    have : 4 * ∑ i, wdeg M i * z i ^ 2 = ∑ i, ∑ j, wsym M i j * (2 * z i ^ 2 + 2 * z j ^ 2) := by
      have : ∑ i, ∑ j, wsym M i j * (2 * z i ^ 2 + 2 * z j ^ 2) = 2 * (∑ i, ∑ j, wsym M i j * z i ^ 2) + 2 * ∑ i, ∑ j, wsym M i j * z j ^ 2 := by
        simp only [Finset.mul_sum, ← Finset.sum_add_distrib]
        exact Finset.sum_congr rfl fun i _ => Finset.sum_congr rfl fun j _ => by ring
      rw [this, a1, a2]
      ring
    rw [this, Fintype.sum_prod_type]
    refine Finset.sum_le_sum fun i _ => Finset.sum_le_sum fun j _ => ?_
    rw [mul_pow, Real.sq_sqrt (hw i j), sq_abs]
    refine mul_le_mul_of_nonneg_left ?_ (hw i j)
    nlinarith [sq_nonneg (z i - z j)]
  rw [e1, e2] at cs
  have hE := dirichlet_nonneg hM z
  nlinarith [mul_le_mul_of_nonneg_left e3 (by linarith : 0 ≤ 2 * dirichlet M z)]

/-- the sweep: a non-negative function with a small energy has a level set with a small cut -/
theorem sweep (hM : NonnegW M) (μ : Fin n → ℝ) {c l : ℝ} (hc : ∀ i, wdeg M i ≤ c * μ i) (hl : 0 ≤ l) (hc0 : 0 ≤ c) (z : Fin n → ℝ) (hz : ∀ i, 0 ≤ z i)
    (hz0 : 0 < ∑ i, μ i * z i ^ 2) (hE : dirichlet M z ≤ l * ∑ i, μ i * z i ^ 2) :
    ∃ t, 0 < t ∧ (∃ i, t ≤ z i) ∧ cut M (Finset.univ.filter fun i => t ≤ z i) ≤ Real.sqrt (2 * c * l) * ∑ i with t ≤ z i, μ i := by
  by_contra hcon
  push Not at hcon
  have hco := coarea hM μ (Real.sqrt (2 * c * l)) _ (fun i => z i ^ 2) (fun i => sq_nonneg _) rfl fun t ht hn => by
    have hs : 0 < Real.sqrt t := Real.sqrt_pos.2 ht
    have he : (Finset.univ.filter fun i => t ≤ z i ^ 2) = Finset.univ.filter fun i => Real.sqrt t ≤ z i := by
      ext i
      simp only [Finset.mem_filter, Finset.mem_univ, true_and]
      exact (Real.sqrt_le_left (hz i)).symm
    rw [he] at hn ⊢
    obtain ⟨i, hi⟩ := hn
    exact hcon _ hs ⟨i, (Finset.mem_filter.1 hi).2⟩
  have hpos : ∃ i, 0 < z i ^ 2 := by
    by_contra hno
    push Not at hno
    have : ∀ i, z i ^ 2 = 0 := fun i => le_antisymm (hno i) (sq_nonneg _)
    simp [this] at hz0
  have hlt := hco.2 hpos
  have hsq := tv_sq_le hM z
  set Q := ∑ i, μ i * z i ^ 2
  have hdeg : ∑ i, wdeg M i * z i ^ 2 ≤ c * Q := by
    rw [Finset.mul_sum]
    exact Finset.sum_le_sum fun i _ => by rw [← mul_assoc]; exact mul_le_mul_of_nonneg_right (hc i) (sq_nonneg _)
  have hD := dirichlet_nonneg hM z
  have h1 : tv M (fun i => z i ^ 2) ^ 2 ≤ (2 * c * l) * Q ^ 2 := by
    have b1 : 2 * dirichlet M z * ∑ i, wdeg M i * z i ^ 2 ≤ 2 * dirichlet M z * (c * Q) := mul_le_mul_of_nonneg_left hdeg (by linarith)
    have b2 : 2 * dirichlet M z * (c * Q) ≤ 2 * (l * Q) * (c * Q) := mul_le_mul_of_nonneg_right (by linarith) (mul_nonneg hc0 hz0.le)
    nlinarith
  have h2 : 0 ≤ Real.sqrt (2 * c * l) * Q := mul_nonneg (Real.sqrt_nonneg _) hz0.le
  have h3 : (Real.sqrt (2 * c * l) * Q) ^ 2 = (2 * c * l) * Q ^ 2 := by rw [mul_pow, Real.sq_sqrt (by positivity)]
  have h4 := tv_nonneg hM fun i => z i ^ 2
  nlinarith

/-- the positive part of an eigenvector -/
theorem pos_part (hM : NonnegW M) (μ : Fin n → ℝ) (l : ℝ) (x : Fin n → ℝ) (hx : ∀ i, (combLap M *ᵥ x) i = l * (μ i * x i)) :
    dirichlet M (fun i => max (x i) 0) ≤ l * ∑ i, μ i * max (x i) 0 ^ 2 := by
  rw [← combLap_quad]
  have : l * ∑ i, μ i * max (x i) 0 ^ 2 = ∑ i, max (x i) 0 * (combLap M *ᵥ x) i := by
    rw [Finset.mul_sum]
    refine Finset.sum_congr rfl fun i _ => ?_
    rw [hx]
    rcases le_total (x i) 0 with h | h
    · rw [max_eq_right h]; ring
    · rw [max_eq_left h]; ring
  rw [this]
  refine Finset.sum_le_sum fun i _ => ?_
  rcases le_total (x i) 0 with h | h
  · have h0 : max (x i) 0 = 0 := max_eq_right h
    simp only [h0, zero_mul, le_refl]
  · refine mul_le_mul_of_nonneg_left ?_ (le_max_right _ _)
    rw [combLap_mulVec, combLap_mulVec]
    refine Finset.sum_le_sum fun j _ => mul_le_mul_of_nonneg_left ?_ (wsym_nonneg' hM i j)
    rw [max_eq_left h]
    linarith [le_max_left (x j) 0]

/-- the sweep over an eigenvector -/
theorem sweep_eigenvector (hM : NonnegW M) (μ : Fin n → ℝ) (hμ : ∀ i, 0 ≤ μ i) {c l : ℝ} (hc : ∀ i, wdeg M i ≤ c * μ i) (hc0 : 0 ≤ c) (hl : 0 < l) (x : Fin n → ℝ)
    (hx : ∀ i, (combLap M *ᵥ x) i = l * (μ i * x i)) (hx0 : ∃ i, μ i * x i ≠ 0) :
    ∃ (A : Finset (Fin n)) (t : ℝ), 0 < t ∧ (A = (Finset.univ.filter fun i => t ≤ x i) ∨ A = Finset.univ.filter fun i => x i ≤ -t) ∧ A.Nonempty ∧ Aᶜ.Nonempty ∧
      2 * ∑ i ∈ A, μ i ≤ ∑ i, μ i ∧ cut M A ≤ Real.sqrt (2 * c * l) * ∑ i ∈ A, μ i := by
  have hsum : ∑ i, μ i * x i = 0 := by
    have h1 : ∑ i, (combLap M *ᵥ x) i = 0 := by
      simp only [combLap_mulVec]
      have : ∑ i, ∑ j, wsym M i j * (x i - x j) = - ∑ i, ∑ j, wsym M i j * (x i - x j) := by
        conv_lhs => rw [Finset.sum_comm]
        rw [← Finset.sum_neg_distrib]
        refine Finset.sum_congr rfl fun i _ => ?_
        rw [← Finset.sum_neg_distrib]
        exact Finset.sum_congr rfl fun j _ => by rw [wsym_comm]; ring
      linarith
    simp only [hx] at h1
    rw [← Finset.mul_sum] at h1
    exact (mul_eq_zero.1 h1).resolve_left hl.ne'
  obtain ⟨i0, hi0⟩ := hx0
  -- one step, for a sign
  have key : ∀ y : Fin n → ℝ, (∀ i, (combLap M *ᵥ y) i = l * (μ i * y i)) → ∑ i, μ i * y i = 0 → μ i0 * y i0 ≠ 0 → 2 * ∑ i with 0 < y i, μ i ≤ ∑ i, μ i →
      ∃ t, 0 < t ∧ (Finset.univ.filter fun i => t ≤ y i).Nonempty ∧ (Finset.univ.filter fun i => t ≤ y i)ᶜ.Nonempty ∧
        2 * ∑ i with t ≤ y i, μ i ≤ ∑ i, μ i ∧ cut M (Finset.univ.filter fun i => t ≤ y i) ≤ Real.sqrt (2 * c * l) * ∑ i with t ≤ y i, μ i := by
    intro y hy hs h0 hhalf
    have hex : ∃ i, 0 < μ i * y i := by
      by_contra hno
      push Not at hno
      have := (Finset.sum_eq_zero_iff_of_nonpos fun i _ => hno i).1 hs
      exact h0 (this i0 (Finset.mem_univ _))
    have hex' : ∃ i, μ i * y i < 0 := by
      by_contra hno
      push Not at hno
      have := (Finset.sum_eq_zero_iff_of_nonneg fun i _ => hno i).1 hs
      exact h0 (this i0 (Finset.mem_univ _))
    obtain ⟨p, hp⟩ := hex
    obtain ⟨q, hq⟩ := hex'
    have hyp : 0 < y p := pos_of_mul_pos_right hp (hμ p)
    have hyq : y q < 0 := by
      by_contra hh
      exact absurd (mul_nonneg (hμ q) (not_lt.1 hh)) (not_le.2 hq)
    obtain ⟨t, ht, ⟨i, hi⟩, hcut⟩ := sweep hM μ hc hl.le hc0 (fun i => max (y i) 0) (fun i => le_max_right _ _)
      (Finset.sum_pos' (fun i _ => mul_nonneg (hμ i) (sq_nonneg _)) ⟨p, Finset.mem_univ _, by
        rw [max_eq_left hyp.le, sq, ← mul_assoc]; exact mul_pos hp hyp⟩) (pos_part hM μ l y hy)
    have he : (Finset.univ.filter fun i => t ≤ max (y i) 0) = Finset.univ.filter fun i => t ≤ y i := by
      ext i
      simp only [Finset.mem_filter, Finset.mem_univ, true_and, le_max_iff]
      exact ⟨fun h => h.resolve_right (by linarith), .inl⟩
    rw [he] at hcut
    refine ⟨t, ht, ⟨i, Finset.mem_filter.2 ⟨Finset.mem_univ _, (le_max_iff.1 hi).resolve_right (by linarith)⟩⟩,
      ⟨q, by simp only [Finset.mem_compl, Finset.mem_filter, Finset.mem_univ, true_and]; linarith⟩, ?_, hcut⟩
    refine le_trans ?_ hhalf
    refine mul_le_mul_of_nonneg_left (Finset.sum_le_sum_of_subset_of_nonneg (fun j hj => ?_) fun j _ _ => hμ j) (by norm_num)
    simp only [Finset.mem_filter, Finset.mem_univ, true_and] at hj ⊢
    linarith
  have htot : ∑ i with 0 < x i, μ i + ∑ i with 0 < -x i, μ i ≤ ∑ i, μ i := by
    rw [← Finset.sum_union]
    · exact Finset.sum_le_sum_of_subset_of_nonneg (Finset.subset_univ _) fun j _ _ => hμ j
    · rw [Finset.disjoint_left]
      intro i h1 h2
      have := (Finset.mem_filter.1 h1).2
      have := (Finset.mem_filter.1 h2).2
      linarith
  rcases le_total (∑ i with 0 < x i, μ i) (∑ i with 0 < -x i, μ i) with hle | hle
  · obtain ⟨t, ht, h1, h2, h3, h4⟩ := key x hx hsum hi0 (by linarith)
    exact ⟨_, t, ht, .inl rfl, h1, h2, h3, h4⟩
  · have hneg : (combLap M *ᵥ fun i => - x i) = - (combLap M *ᵥ x) := by
      rw [show (fun i => - x i) = - x from rfl, Matrix.mulVec_neg]
    obtain ⟨t, ht, h1, h2, h3, h4⟩ := key (fun i => - x i) (fun i => by rw [hneg, Pi.neg_apply, hx]; ring)
      (by simpa [Finset.sum_neg_distrib] using hsum) (by simpa using hi0) (by linarith)
    have he : (Finset.univ.filter fun i => t ≤ -x i) = Finset.univ.filter fun i => x i ≤ -t := by
      ext i
      simp only [Finset.mem_filter, Finset.mem_univ, true_and]
      constructor <;> intro <;> linarith
    rw [he] at h1 h2 h3 h4
    exact ⟨_, t, ht, .inr rfl, h1, h2, h3, h4⟩

end Cheeger

end PyGSP
