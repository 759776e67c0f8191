import Verif.Lemmas.Cheby
import Mathlib.Analysis.Calculus.Deriv.MeanValue
import Mathlib.Analysis.SpecialFunctions.Trigonometric.Deriv
import Mathlib.Analysis.SpecialFunctions.Trigonometric.Complex

/-! # The partial sums of `∑ sin (k x) / k` -/

namespace PyGSP

open Real Set

/-- `∑_{1 ≤ k < N} sin (k x) / k` -/
noncomputable def sinSum (N : ℕ) (x : ℝ) : ℝ := ∑ k ∈ Finset.Ico 1 N, sin (k * x) / k

theorem sinSum_neg (N : ℕ) (x : ℝ) : sinSum N (-x) = - sinSum N x := by
  unfold sinSum
  rw [← Finset.sum_neg_distrib]
  refine Finset.sum_congr rfl fun k _ => ?_
  rw [mul_neg, sin_neg, neg_div]

theorem sinSum_reflect (N : ℕ) (x : ℝ) : sinSum N (2 * π - x) = - sinSum N x := by
  unfold sinSum
  rw [← Finset.sum_neg_distrib]
  refine Finset.sum_congr rfl fun k _ => ?_
  rw [mul_sub, mul_comm 2 π, ← mul_assoc, mul_assoc, mul_comm π 2, sin_nat_mul_two_pi_sub, neg_div]

theorem sinSum_pi (N : ℕ) : sinSum N π = 0 := by
  unfold sinSum
  exact Finset.sum_eq_zero fun k _ => by rw [sin_nat_mul_pi, zero_div]

theorem sinSum_zero (N : ℕ) : sinSum N 0 = 0 := by simp [sinSum]

theorem sinSum_deriv (N : ℕ) (x : ℝ) : HasDerivAt (sinSum N) (∑ k ∈ Finset.Ico 1 N, cos (k * x)) x := by
  unfold sinSum
  refine HasDerivAt.fun_sum fun k hk => ?_
  have hk0 : (k : ℝ) ≠ 0 := by have := (Finset.mem_Ico.1 hk).1; positivity
  have h1 : HasDerivAt (fun x : ℝ => (k : ℝ) * x) k x := by simpa using (hasDerivAt_id x).const_mul (k : ℝ)
  have h2 := (h1.sin).div_const (k : ℝ)
  rwa [mul_div_assoc, div_self hk0, mul_one] at h2

/-- the boundary function `1 / ((2 N - 1) sin (x / 2))` -/
theorem recip_deriv {a x : ℝ} (ha : a ≠ 0) (hx : sin (x / 2) ≠ 0) :
    HasDerivAt (fun t => 1 / (a * sin (t / 2))) (-(cos (x / 2) / 2) / (a * sin (x / 2) ^ 2)) x := by
  have h1 : HasDerivAt (fun t : ℝ => t / 2) (1 / 2) x := (hasDerivAt_id x).div_const 2
  have h2 := (h1.sin).const_mul a
  have h3 := h2.fun_inv (mul_ne_zero ha hx)
  simp only [one_div]
  refine h3.congr_deriv ?_
  field_simp

theorem sinSum_bound_half {N : ℕ} (hN : 0 < N) {x : ℝ} (h0 : 0 < x) (hx : x ≤ π) :
    |sinSum N x - (π - x) / 2| ≤ 2 / ((2 * N - 1) * sin (x / 2)) := by
  have hN1 : (1 : ℝ) ≤ N := by exact_mod_cast hN
  set a : ℝ := 2 * N - 1 with ha
  have ha0 : 0 < a := by rw [ha]; linarith
  have hs : ∀ t ∈ Icc x π, 0 < sin (t / 2) := fun t ht =>
    sin_pos_of_pos_of_lt_pi (by linarith [ht.1]) (by linarith [ht.2, pi_pos])
  have hc : ∀ t ∈ Icc x π, 0 ≤ cos (t / 2) := fun t ht =>
    cos_nonneg_of_neg_pi_div_two_le_of_le (by linarith [ht.1, pi_pos]) (by linarith [ht.2])
  -- the two auxiliary functions
  set h : ℝ → ℝ := fun t => 1 / (a * sin (t / 2)) with hh
  set G : ℝ → ℝ := fun t => sinSum N t - (π - t) / 2 + cos (a / 2 * t) * h t with hG
  have hhd : ∀ t ∈ Icc x π, HasDerivAt h (-(cos (t / 2) / 2) / (a * sin (t / 2) ^ 2)) t := fun t ht =>
    recip_deriv ha0.ne' (hs t ht).ne'
  have hGd : ∀ t ∈ Icc x π, HasDerivAt G (cos (a / 2 * t) * (-(cos (t / 2) / 2) / (a * sin (t / 2) ^ 2))) t := by
    intro t ht
    have h1 := sinSum_deriv N t
    have h2 : HasDerivAt (fun t : ℝ => (π - t) / 2) (-1 / 2) t := by
      simpa using ((hasDerivAt_id t).const_sub π).div_const 2
    have h3 : HasDerivAt (fun t : ℝ => cos (a / 2 * t)) (-sin (a / 2 * t) * (a / 2)) t := by
      have : HasDerivAt (fun t : ℝ => a / 2 * t) (a / 2) t := by simpa using (hasDerivAt_id t).const_mul (a / 2)
      exact this.cos
    have h4 := (h1.sub h2).add (h3.mul (hhd t ht))
    refine h4.congr_deriv ?_
    have hd := dirichlet_kernel t N hN
    have hst := (hs t ht).ne'
    have : ∑ k ∈ Finset.Ico 1 N, cos (k * t) + 1 / 2 = sin (a / 2 * t) / (2 * sin (t / 2)) := by
      rw [eq_div_iff (mul_ne_zero two_ne_zero hst), show a / 2 * t = (N - 1 / 2) * t by rw [ha]; ring, ← hd]
      ring
    rw [hh]
    simp only
    have e : ∑ k ∈ Finset.Ico 1 N, cos (k * t) - -1 / 2 = sin (a / 2 * t) / (2 * sin (t / 2)) := by rw [← this]; ring
    rw [e]
    field_simp
    ring
  have hcont : ∀ t ∈ Icc x π, ContinuousAt h t ∧ ContinuousAt G t := fun t ht =>
    ⟨(hhd t ht).continuousAt, (hGd t ht).continuousAt⟩
  have hmono : ∀ σ : ℝ, |σ| ≤ 1 → AntitoneOn (fun t => h t + σ * G t) (Icc x π) := by
    intro σ hσ
    refine antitoneOn_of_deriv_nonpos (convex_Icc x π) ?_ ?_ ?_
    · intro t ht
      exact ((hcont t ht).1.add (continuousAt_const.mul (hcont t ht).2)).continuousWithinAt
    · intro t ht
      rw [interior_Icc] at ht
      have ht' := Ioo_subset_Icc_self ht
      exact ((hhd t ht').add ((hGd t ht').const_mul σ)).differentiableAt.differentiableWithinAt
    · intro t ht
      rw [interior_Icc] at ht
      have ht' := Ioo_subset_Icc_self ht
      have hd := ((hhd t ht').add ((hGd t ht').const_mul σ)).deriv
      refine (le_of_eq hd).trans ?_
      have hb : 0 ≤ (cos (t / 2) / 2) / (a * sin (t / 2) ^ 2) := by
        have := hc t ht'
        have := hs t ht'
        positivity
      have hq : -1 ≤ σ * cos (a / 2 * t) := by
        have h1 : |σ * cos (a / 2 * t)| ≤ 1 := by
          rw [abs_mul]
          exact mul_le_one₀ hσ (abs_nonneg _) (abs_cos_le_one _)
        exact (abs_le.1 h1).1
      have : -(cos (t / 2) / 2) / (a * sin (t / 2) ^ 2) + σ * (cos (a / 2 * t) * (-(cos (t / 2) / 2) / (a * sin (t / 2) ^ 2))) =
          -((1 + σ * cos (a / 2 * t)) * ((cos (t / 2) / 2) / (a * sin (t / 2) ^ 2))) := by ring
      rw [this]
      have : 0 ≤ (1 + σ * cos (a / 2 * t)) * ((cos (t / 2) / 2) / (a * sin (t / 2) ^ 2)) :=
        mul_nonneg (by linarith) hb
      linarith
  have hGpi : G π = 0 := by
    rw [hG]
    simp only [sinSum_pi]
    have : cos (a / 2 * π) = 0 := by
      rw [Real.cos_eq_zero_iff]
      exact ⟨N - 1, by rw [ha]; push_cast; ring⟩
    rw [this]; ring
  have hxm : x ∈ Icc x π := ⟨le_rfl, hx⟩
  have hpm : π ∈ Icc x π := ⟨hx, le_rfl⟩
  have hhpi : 0 < h π := by
    have := hs π hpm
    rw [hh]; positivity
  have hhx : 0 < h x := by
    have := hs x hxm
    rw [hh]; positivity
  have k1 := hmono 1 (by simp) hxm hpm hx
  have k2 := hmono (-1) (by simp) hxm hpm hx
  simp only [hGpi] at k1 k2
  have hG1 : |G x| ≤ h x := abs_le.2 ⟨by linarith, by linarith⟩
  have e : sinSum N x - (π - x) / 2 = G x - cos (a / 2 * x) * h x := by rw [hG]; ring
  rw [e]
  have h2 : |cos (a / 2 * x) * h x| ≤ h x := by
    rw [abs_mul, abs_of_pos hhx]
    exact mul_le_of_le_one_left hhx.le (abs_cos_le_one _)
  calc _ ≤ |G x| + |cos (a / 2 * x) * h x| := abs_sub _ _
    _ ≤ h x + h x := add_le_add hG1 h2
    _ = _ := by rw [hh]; simp only; ring

/-- The partial sums converge to `(π - x) / 2` on `(0, 2 π)`, with an explicit rate. -/
theorem sinSum_bound {N : ℕ} (hN : 0 < N) {x : ℝ} (h0 : 0 < x) (hx : x < 2 * π) :
    |sinSum N x - (π - x) / 2| ≤ 2 / ((2 * N - 1) * sin (x / 2)) := by
  by_cases h : x ≤ π
  · exact sinSum_bound_half hN h0 h
  · have := sinSum_bound_half hN (x := 2 * π - x) (by linarith) (by linarith)
    rw [sinSum_reflect, show (2 * π - x) / 2 = π - x / 2 by ring, sin_pi_sub] at this
    rw [abs_sub_comm]
    convert this using 2
    ring

end PyGSP
