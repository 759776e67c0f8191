import Verif.Lemmas.Rect

/-! # The Jackson kernel -/

namespace PyGSP

open Real Spec

/-- the weights whose autocorrelation is the Jackson kernel -/
noncomputable def jw (m j : ℕ) : ℝ := sin ((j + 1) * (π / (m + 2)))

/-- the square of the modulus of `∑ a_j exp (i j ψ)` -/
theorem autocorrelation (a : ℕ → ℝ) (ψ : ℝ) : ∀ N : ℕ,
    (∑ j ∈ Finset.range N, a j * cos (j * ψ)) ^ 2 + (∑ j ∈ Finset.range N, a j * sin (j * ψ)) ^ 2 =
      ∑ j ∈ Finset.range N, a j ^ 2 +
        2 * ∑ k ∈ Finset.Ico 1 N, (∑ j ∈ Finset.range (N - k), a j * a (j + k)) * cos (k * ψ) := by
  intro N
  induction N with
  | zero => simp
  | succ N ih =>
    have h1 : ∑ k ∈ Finset.Ico 1 (N + 1), (∑ j ∈ Finset.range (N + 1 - k), a j * a (j + k)) * cos (k * ψ) =
        ∑ k ∈ Finset.Ico 1 N, (∑ j ∈ Finset.range (N - k), a j * a (j + k)) * cos (k * ψ) +
        ∑ j ∈ Finset.range N, a j * a N * cos ((N - j) * ψ) := by
      have h2 : ∀ k ∈ Finset.Ico 1 (N + 1), (∑ j ∈ Finset.range (N + 1 - k), a j * a (j + k)) * cos (k * ψ) =
          (∑ j ∈ Finset.range (N - k), a j * a (j + k)) * cos (k * ψ) + a (N - k) * a N * cos (k * ψ) := by
        intro k hk
        have := Finset.mem_Ico.1 hk
        rw [show N + 1 - k = N - k + 1 by omega, Finset.sum_range_succ, add_mul, Nat.sub_add_cancel (by omega)]
      rw [Finset.sum_congr rfl h2, Finset.sum_add_distrib]
      congr 1
      · by_cases hN : 1 ≤ N
        · rw [Finset.sum_Ico_succ_top hN, Nat.sub_self]
          simp
        · have : N = 0 := by omega
          subst this; simp
      · refine Finset.sum_bij' (fun k _ => N - k) (fun j _ => N - j) ?_ ?_ ?_ ?_ ?_
        · intro k hk; have := Finset.mem_Ico.1 hk; exact Finset.mem_range.2 (by omega)
        · intro j hj; have := Finset.mem_range.1 hj; exact Finset.mem_Ico.2 (by omega)
        · intro k hk; have := Finset.mem_Ico.1 hk; omega
        · intro j hj; have := Finset.mem_range.1 hj; omega
        · intro k hk
          have := Finset.mem_Ico.1 hk
          rw [Nat.cast_sub (by omega), sub_sub_cancel]
    rw [h1, Finset.sum_range_succ, Finset.sum_range_succ, Finset.sum_range_succ, mul_add]
    have h3 : ∑ j ∈ Finset.range N, a j * a N * cos ((N - j) * ψ) =
        a N * (cos (N * ψ) * ∑ j ∈ Finset.range N, a j * cos (j * ψ) + sin (N * ψ) * ∑ j ∈ Finset.range N, a j * sin (j * ψ)) := by
      rw [Finset.mul_sum, Finset.mul_sum, ← Finset.sum_add_distrib, Finset.mul_sum]
      refine Finset.sum_congr rfl fun j _ => ?_
      rw [sub_mul, cos_sub]; ring
    rw [h3]
    have h4 := sin_sq_add_cos_sq (N * ψ)
    linear_combination ih + a N ^ 2 * h4

theorem jw_sum {m : ℕ} {k : ℕ} (hk : k ≤ m) :
    ∑ j ∈ Finset.range (m + 1 - k), jw m j * jw m (j + k) = (m + 2) / 2 * jacksonFactor m k := by
  set α : ℝ := π / (m + 2) with hα
  have hm : (0 : ℝ) < m + 2 := by positivity
  have hα0 : 0 < α := by positivity
  have hαpi : α < π := by
    rw [hα, div_lt_iff₀ hm]
    have : (0 : ℝ) ≤ m := by positivity
    nlinarith [pi_pos]
  have hs : sin α ≠ 0 := (sin_pos_of_pos_of_lt_pi hα0 hαpi).ne'
  have hper : (m + 2) * α = π := by rw [hα]; field_simp
  have tele : ∀ q : ℕ, 2 * sin α * ∑ j ∈ Finset.range q, jw m j * jw m (j + k) =
      q * sin α * cos (k * α) - (1 / 2) * (sin ((2 * q + 1 + k) * α) - sin ((1 + k) * α)) := by
    intro q
    induction q with
    | zero => simp
    | succ q ih =>
      rw [Finset.sum_range_succ, mul_add, ih]
      have e1 : 2 * sin α * (jw m q * jw m (q + k)) = sin α * cos (k * α) - sin α * cos ((2 * q + 2 + k) * α) := by
        unfold jw
        rw [← hα]
        have := cos_sub ((q + 1) * α) (((q + k : ℕ) + 1) * α)
        have h2 := cos_add ((q + 1) * α) (((q + k : ℕ) + 1) * α)
        rw [show ((q : ℝ) + 1) * α - (((q + k : ℕ) : ℝ) + 1) * α = -(k * α) by push_cast; ring, cos_neg] at this
        rw [show ((q : ℝ) + 1) * α + (((q + k : ℕ) : ℝ) + 1) * α = (2 * q + 2 + k) * α by push_cast; ring] at h2
        rw [this, h2]; ring
      have e2 : sin ((2 * (q + 1 : ℕ) + 1 + k) * α) - sin ((2 * q + 1 + k) * α) = 2 * (sin α * cos ((2 * q + 2 + k) * α)) := by
        rw [show (2 * ((q + 1 : ℕ) : ℝ) + 1 + k) * α = (2 * q + 2 + k) * α + α by push_cast; ring,
          show (2 * (q : ℝ) + 1 + k) * α = (2 * q + 2 + k) * α - α by ring, sin_add, sin_sub]
        ring
      rw [e1]
      push_cast at e2 ⊢
      linear_combination (1/2) * e2
  have h := tele (m + 1 - k)
  have hc : ((m + 1 - k : ℕ) : ℝ) = m + 1 - k := by rw [Nat.cast_sub (by omega)]; push_cast; ring
  rw [hc] at h
  have e3 : sin ((2 * ((m : ℝ) + 1 - k) + 1 + k) * α) = - sin ((1 + k) * α) := by
    rw [show (2 * ((m : ℝ) + 1 - k) + 1 + k) * α = 2 * π - (1 + k) * α by rw [← hper]; ring, sin_two_pi_sub]
  rw [e3, show (1 + (k : ℝ)) * α = α + k * α by ring, sin_add] at h
  have : jacksonFactor m k = 1 / sin α * ((1 - k / (m + 2)) * sin α * cos (k * α) + 1 / (m + 2) * cos α * sin (k * α)) := rfl
  rw [this]
  have h5 : ∑ j ∈ Finset.range (m + 1 - k), jw m j * jw m (j + k) = (((m : ℝ) + 1 - k) * sin α * cos (k * α) -
      1 / 2 * (-(sin α * cos (k * α) + cos α * sin (k * α)) - (sin α * cos (k * α) + cos α * sin (k * α)))) / (2 * sin α) := by
    rw [eq_div_iff (by simpa using hs), ← h]; ring
  rw [h5]
  field_simp
  ring

theorem jacksonFactor_zero (m : ℕ) : jacksonFactor m 0 = 1 := by
  have hm : (0 : ℝ) < m + 2 := by positivity
  have hs : sin (π / (m + 2)) ≠ 0 := by
    refine (sin_pos_of_pos_of_lt_pi (by positivity) ?_).ne'
    rw [div_lt_iff₀ hm]
    have : (0 : ℝ) ≤ m := by positivity
    nlinarith [pi_pos]
  unfold jacksonFactor
  simp [hs]

theorem jackson_nonneg (m : ℕ) (ψ : ℝ) : 0 ≤ cosPoly (jacksonFactor m) (m + 1) ψ := by
  have h := autocorrelation (jw m) ψ (m + 1)
  have hm : (0 : ℝ) < m + 2 := by positivity
  have h0 : ∑ j ∈ Finset.range (m + 1), jw m j ^ 2 = (m + 2) / 2 * jacksonFactor m 0 := by
    have := jw_sum (m := m) (Nat.zero_le m)
    simpa only [Nat.sub_zero, Nat.add_zero, ← sq] using this
  have h1 : ∑ k ∈ Finset.Ico 1 (m + 1), (∑ j ∈ Finset.range (m + 1 - k), jw m j * jw m (j + k)) * cos (k * ψ) =
      (m + 2) / 2 * ∑ k ∈ Finset.Ico 1 (m + 1), jacksonFactor m k * cos (k * ψ) := by
    rw [Finset.mul_sum]
    refine Finset.sum_congr rfl fun k hk => ?_
    rw [jw_sum (by have := (Finset.mem_Ico.1 hk).2; omega)]; ring
  rw [h0, h1] at h
  have h2 : 0 ≤ (m + 2) * cosPoly (jacksonFactor m) (m + 1) ψ := by
    unfold cosPoly
    have : 0 ≤ (m + 2) / 2 * jacksonFactor m 0 + 2 * ((m + 2) / 2 * ∑ k ∈ Finset.Ico 1 (m + 1), jacksonFactor m k * cos (k * ψ)) := by
      rw [← h]; positivity
    linarith
  exact nonneg_of_mul_nonneg_right h2 hm

/-- the kernel seen from the angle `θ` -/
noncomputable def jq (m : ℕ) (θ φ : ℝ) : ℝ := cosPoly (fun k => jacksonFactor m k * cos (k * θ)) (m + 1) φ

theorem jq_nonneg (m : ℕ) (θ φ : ℝ) : 0 ≤ jq m θ φ := by
  have h1 := jackson_nonneg m (φ + θ)
  have h2 := jackson_nonneg m (φ - θ)
  have : jq m θ φ = (cosPoly (jacksonFactor m) (m + 1) (φ + θ) + cosPoly (jacksonFactor m) (m + 1) (φ - θ)) / 2 := by
    unfold jq cosPoly
    simp only [Nat.cast_zero, zero_mul, cos_zero, mul_one]
    have : ∀ k : ℕ, jacksonFactor m k * cos (k * (φ + θ)) + jacksonFactor m k * cos (k * (φ - θ)) =
        2 * (jacksonFactor m k * cos (k * θ) * cos (k * φ)) := by
      intro k
      rw [mul_add, mul_sub, cos_add, cos_sub]; ring
    have h3 : ∑ k ∈ Finset.Ico 1 (m + 1), jacksonFactor m k * cos (k * (φ + θ)) +
        ∑ k ∈ Finset.Ico 1 (m + 1), jacksonFactor m k * cos (k * (φ - θ)) =
        2 * ∑ k ∈ Finset.Ico 1 (m + 1), jacksonFactor m k * cos (k * θ) * cos (k * φ) := by
      rw [← Finset.sum_add_distrib, Finset.mul_sum]
      exact Finset.sum_congr rfl fun k _ => this k
    linear_combination (-1/2) * h3
  rw [this]
  linarith

theorem jq_cont (m : ℕ) (θ : ℝ) : Continuous (jq m θ) :=
  cosPoly_cont (fun k => jacksonFactor m k * cos (k * θ)) (m + 1)

theorem jq_integral (m : ℕ) (θ : ℝ) : ∫ φ in (0 : ℝ)..π, jq m θ φ = π / 2 := by
  have := cosPoly_coeff (fun k => jacksonFactor m k * cos (k * θ)) (Nat.succ_pos m)
  simp only [Nat.cast_zero, zero_mul, cos_zero, one_mul, mul_one, jacksonFactor_zero] at this
  exact this

/-- the damped polynomial is an average of the rectangle -/
theorem jackson_average {b1 b2 : ℝ} (h0 : 0 ≤ b2) (h12 : b2 ≤ b1) (hp : b1 ≤ π) (m : ℕ) (θ : ℝ) :
    cosPoly (fun k => rectC b1 b2 k * jacksonFactor m k) (m + 1) θ = 2 / π * ∫ φ in (0 : ℝ)..π, box b1 b2 φ * jq m θ φ := by
  unfold jq
  rw [integral_mul_cosPoly _ (fun k => box_integrable _ _ (by fun_prop)), rectC_integral h0 h12 hp]
  simp only [rectC_integral h0 h12 hp]
  unfold cosPoly
  have := pi_ne_zero
  simp only [Nat.cast_zero, zero_mul, cos_zero, mul_one]
  rw [mul_add, Finset.mul_sum]
  congr 1
  · field_simp
  · refine Finset.sum_congr rfl fun k _ => ?_
    field_simp

theorem jackson_bounds {b1 b2 : ℝ} (h0 : 0 ≤ b2) (h12 : b2 ≤ b1) (hp : b1 ≤ π) (m : ℕ) (θ : ℝ) :
    0 ≤ cosPoly (fun k => rectC b1 b2 k * jacksonFactor m k) (m + 1) θ ∧
    cosPoly (fun k => rectC b1 b2 k * jacksonFactor m k) (m + 1) θ ≤ 1 := by
  rw [jackson_average h0 h12 hp]
  have hb : ∀ φ, 0 ≤ box b1 b2 φ ∧ box b1 b2 φ ≤ 1 := by intro φ; unfold box; split_ifs <;> simp
  constructor
  · exact mul_nonneg (by positivity) (intervalIntegral.integral_nonneg pi_pos.le fun φ _ =>
      mul_nonneg (hb φ).1 (jq_nonneg m θ φ))
  · have : ∫ φ in (0 : ℝ)..π, box b1 b2 φ * jq m θ φ ≤ ∫ φ in (0 : ℝ)..π, jq m θ φ :=
      intervalIntegral.integral_mono_on pi_pos.le (box_integrable _ _ (jq_cont m θ)) ((jq_cont m θ).intervalIntegrable _ _)
        fun φ _ => mul_le_of_le_one_left (jq_nonneg m θ φ) (hb φ).2
    rw [jq_integral] at this
    calc _ ≤ 2 / π * (π / 2) := mul_le_mul_of_nonneg_left this (by positivity)
      _ = 1 := by have := pi_ne_zero; field_simp

/-- the second moment of the kernel -/
theorem jq_moment {m : ℕ} (hm : 2 ≤ m) (θ : ℝ) :
    ∫ φ in (0 : ℝ)..π, jq m θ φ * (cos φ - cos θ) ^ 2 ≤ π * (π / (m + 2)) ^ 2 := by
  set α : ℝ := π / (m + 2) with hα
  have hmp : (0 : ℝ) < m + 2 := by positivity
  have hα0 : 0 < α := by positivity
  have hαpi : α < π := by
    rw [hα, div_lt_iff₀ hmp]
    have : (0 : ℝ) ≤ m := by positivity
    nlinarith [pi_pos]
  have hs : sin α ≠ 0 := (sin_pos_of_pos_of_lt_pi hα0 hαpi).ne'
  set g := jacksonFactor m
  have g1 : g 1 = cos α := by
    show 1 / sin α * ((1 - (1 : ℕ) / (m + 2)) * sin α * cos ((1 : ℕ) * α) + 1 / (m + 2) * cos α * sin ((1 : ℕ) * α)) = _
    simp only [Nat.cast_one, one_mul]
    field_simp
    ring
  have g2 : g 2 = 1 - 2 * sin α ^ 2 * (1 - 1 / (m + 2)) := by
    show 1 / sin α * ((1 - (2 : ℕ) / (m + 2)) * sin α * cos ((2 : ℕ) * α) + 1 / (m + 2) * cos α * sin ((2 : ℕ) * α)) = _
    simp only [Nat.cast_ofNat, sin_two_mul, cos_two_mul]
    have := sin_sq_add_cos_sq α
    have hc : cos α ^ 2 = 1 - sin α ^ 2 := by linarith
    field_simp
    rw [hc]
    ring
  have hi : ∀ k < m + 1, ∫ φ in (0 : ℝ)..π, cos (k * φ) * jq m θ φ = π / 2 * (g k * cos (k * θ)) := fun k hk => by
    unfold jq
    exact cosPoly_coeff _ hk
  have e : ∀ φ, jq m θ φ * (cos φ - cos θ) ^ 2 = (1 / 2 + cos θ ^ 2) * (cos ((0 : ℕ) * φ) * jq m θ φ) +
      (-2 * cos θ) * (cos ((1 : ℕ) * φ) * jq m θ φ) + (1 / 2) * (cos ((2 : ℕ) * φ) * jq m θ φ) := by
    intro φ
    simp only [Nat.cast_zero, zero_mul, cos_zero, Nat.cast_one, one_mul, Nat.cast_ofNat, cos_two_mul]
    ring
  have hci : ∀ k : ℕ, IntervalIntegrable (fun φ => cos (k * φ) * jq m θ φ) MeasureTheory.volume 0 π := by
    intro k
    apply Continuous.intervalIntegrable
    have := jq_cont m θ
    fun_prop
  simp only [e]
  rw [intervalIntegral.integral_add (((hci 0).const_mul _).add ((hci 1).const_mul _)) ((hci 2).const_mul _),
    intervalIntegral.integral_add ((hci 0).const_mul _) ((hci 1).const_mul _), intervalIntegral.integral_const_mul,
    intervalIntegral.integral_const_mul, intervalIntegral.integral_const_mul, hi 0 (by omega), hi 1 (by omega), hi 2 (by omega),
    g1, g2, show g 0 = 1 from jacksonFactor_zero m]
  simp only [Nat.cast_zero, zero_mul, cos_zero, Nat.cast_one, one_mul, Nat.cast_ofNat, cos_two_mul]
  have hsa : sin α ^ 2 ≤ α ^ 2 := by
    have h1 := abs_sin_le_one α
    have : |sin α| ≤ |α| := abs_sin_le_abs (x := α)
    exact sq_le_sq.2 this
  have hca : 2 * (1 - cos α) ≤ α ^ 2 := by
    have := one_sub_sq_div_two_le_cos (x := α)
    linarith
  have hcθ : cos θ ^ 2 ≤ 1 := by nlinarith [sin_sq_add_cos_sq θ, sq_nonneg (sin θ)]
  have hr : 0 ≤ 1 - 1 / ((m : ℝ) + 2) ∧ 1 - 1 / ((m : ℝ) + 2) ≤ 1 := by
    constructor
    · rw [sub_nonneg, div_le_one hmp]
      have : (0 : ℝ) ≤ m := by positivity
      linarith
    · have : 0 ≤ 1 / ((m : ℝ) + 2) := by positivity
      linarith
  set r := 1 - 1 / ((m : ℝ) + 2)
  have hsr : 0 ≤ sin α ^ 2 * r := mul_nonneg (sq_nonneg _) hr.1
  have hsr1 : sin α ^ 2 * r ≤ α ^ 2 := (mul_le_of_le_one_right (sq_nonneg _) hr.2).trans hsa
  have key : (1 / 2 + cos θ ^ 2) * (1 * 1) + -2 * cos θ * (cos α * cos θ) + 1 / 2 * ((1 - 2 * sin α ^ 2 * r) * (2 * cos θ ^ 2 - 1)) ≤
      2 * α ^ 2 := by
    have : (1 / 2 + cos θ ^ 2) * (1 * 1) + -2 * cos θ * (cos α * cos θ) + 1 / 2 * ((1 - 2 * sin α ^ 2 * r) * (2 * cos θ ^ 2 - 1)) =
        sin α ^ 2 * r - 2 * (sin α ^ 2 * r) * cos θ ^ 2 + 2 * (1 - cos α) * cos θ ^ 2 := by ring
    rw [this]
    have h1 : 2 * (1 - cos α) * cos θ ^ 2 ≤ α ^ 2 := by
      have : 0 ≤ 1 - cos α := by linarith [cos_le_one α]
      calc _ ≤ 2 * (1 - cos α) * 1 := mul_le_mul_of_nonneg_left hcθ (by linarith)
        _ ≤ _ := by linarith
    have h2 : 0 ≤ 2 * (sin α ^ 2 * r) * cos θ ^ 2 := by positivity
    linarith
  have hpi := pi_pos
  nlinarith [mul_le_mul_of_nonneg_left key (show 0 ≤ π / 2 by positivity)]

/-- the damped polynomial is close to the rectangle away from its edges -/
theorem jackson_close {b1 b2 : ℝ} (h0 : 0 ≤ b2) (h12 : b2 ≤ b1) (hp : b1 ≤ π) {m : ℕ} (hm : 2 ≤ m) (θ : ℝ) {η : ℝ} (hη : 0 < η)
    (v : ℝ) (hv : v = 0 ∨ v = 1) (hfar : ∀ φ ∈ Set.Icc 0 π, box b1 b2 φ ≠ v → η ≤ |cos φ - cos θ|) :
    |cosPoly (fun k => rectC b1 b2 k * jacksonFactor m k) (m + 1) θ - v| ≤ 2 * (π / (m + 2)) ^ 2 / η ^ 2 := by
  have hpi := pi_pos
  have hpi0 := pi_ne_zero
  rw [jackson_average h0 h12 hp]
  have hq := jq_cont m θ
  have e1 : v = 2 / π * ∫ φ in (0 : ℝ)..π, v * jq m θ φ := by
    rw [intervalIntegral.integral_const_mul, jq_integral]; field_simp
  have hbi := box_integrable b1 b2 hq
  have hvi : IntervalIntegrable (fun φ => v * jq m θ φ) MeasureTheory.volume 0 π := (hq.const_mul v).intervalIntegrable _ _
  have e2 : 2 / π * (∫ φ in (0 : ℝ)..π, box b1 b2 φ * jq m θ φ) - v =
      2 / π * ∫ φ in (0 : ℝ)..π, (box b1 b2 φ * jq m θ φ - v * jq m θ φ) := by
    rw [intervalIntegral.integral_sub hbi hvi, mul_sub, ← e1]
  rw [e2, abs_mul, abs_of_pos (by positivity)]
  have h1 : |∫ φ in (0 : ℝ)..π, (box b1 b2 φ * jq m θ φ - v * jq m θ φ)| ≤
      ∫ φ in (0 : ℝ)..π, |box b1 b2 φ * jq m θ φ - v * jq m θ φ| :=
    intervalIntegral.abs_integral_le_integral_abs hpi.le
  have h2 : ∫ φ in (0 : ℝ)..π, |box b1 b2 φ * jq m θ φ - v * jq m θ φ| ≤
      ∫ φ in (0 : ℝ)..π, (1 / η ^ 2) * (jq m θ φ * (cos φ - cos θ) ^ 2) := by
    refine intervalIntegral.integral_mono_on hpi.le (hbi.sub hvi).abs ?_ ?_
    · apply Continuous.intervalIntegrable; fun_prop
    · intro φ hφ
      rw [← sub_mul, abs_mul, abs_of_nonneg (jq_nonneg m θ φ)]
      by_cases hb : box b1 b2 φ = v
      · rw [hb, sub_self, abs_zero, zero_mul]
        have := jq_nonneg m θ φ
        positivity
      · have h3 := hfar φ hφ hb
        have h4 : η ^ 2 ≤ (cos φ - cos θ) ^ 2 := by
          rw [← sq_abs (cos φ - cos θ)]
          exact pow_le_pow_left₀ hη.le h3 2
        have h5 : |box b1 b2 φ - v| ≤ 1 := by
          unfold box
          rcases hv with rfl | rfl <;> split_ifs <;> norm_num
        have h6 : 1 ≤ 1 / η ^ 2 * (cos φ - cos θ) ^ 2 := by
          rw [one_div, inv_mul_eq_div, le_div_iff₀ (by positivity), one_mul]
          exact h4
        calc _ ≤ 1 * jq m θ φ := mul_le_mul_of_nonneg_right h5 (jq_nonneg m θ φ)
          _ ≤ (1 / η ^ 2 * (cos φ - cos θ) ^ 2) * jq m θ φ := mul_le_mul_of_nonneg_right h6 (jq_nonneg m θ φ)
          _ = _ := by ring
  rw [intervalIntegral.integral_const_mul] at h2
  have h3 := jq_moment hm θ
  calc _ ≤ 2 / π * (1 / η ^ 2 * (π * (π / (m + 2)) ^ 2)) :=
        mul_le_mul_of_nonneg_left (h1.trans (h2.trans (mul_le_mul_of_nonneg_left h3 (by positivity)))) (by positivity)
    _ = _ := by field_simp

end PyGSP
