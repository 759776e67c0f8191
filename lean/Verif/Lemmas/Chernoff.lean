import Mathlib.Analysis.SpecialFunctions.Exp
import Mathlib.Analysis.SpecialFunctions.ExpDeriv
import Mathlib.Analysis.Complex.Exponential
import Mathlib.Analysis.Convex.SpecificFunctions.Basic
import Mathlib.Algebra.BigOperators.Ring.Finset
import Mathlib.Algebra.BigOperators.Field
import Mathlib.Algebra.Order.Chebyshev

/-!
# Independent draws from a finite set

`d : Fin q → Fin m` are the draws, `∏ t, p (d t)` is the probability of `d`.
-/

namespace PyGSP.Draws

variable {q m : ℕ} {p : Fin m → ℝ}

theorem sum_prod (f : Fin q → Fin m → ℝ) : ∑ d : Fin q → Fin m, ∏ t, f t (d t) = ∏ t, ∑ k, f t k := by
  have h := Finset.prod_univ_sum (fun _ : Fin q => (Finset.univ : Finset (Fin m))) f
  rw [Fintype.piFinset_univ] at h
  exact h.symm

/-- the mean of a function of one draw -/
theorem mean_one (hp : ∑ k, p k = 1) (f : Fin m → ℝ) (t : Fin q) :
    ∑ d : Fin q → Fin m, (∏ u, p (d u)) * f (d t) = ∑ k, p k * f k := by
  have h1 : ∀ d : Fin q → Fin m, (∏ u, p (d u)) * f (d t) = ∏ u, p (d u) * (if u = t then f (d u) else 1) := by
    intro d
    rw [Finset.prod_mul_distrib]
    simp
  rw [Finset.sum_congr rfl fun d _ => h1 d, sum_prod (fun u k => p k * (if u = t then f k else 1))]
  rw [Finset.prod_eq_single t]
  · simp
  · intro b _ hb; simp [hb, hp]
  · simp

/-- the mean of a product of functions of two different draws -/
theorem mean_two (hp : ∑ k, p k = 1) (f g : Fin m → ℝ) {t u : Fin q} (htu : t ≠ u) :
    ∑ d : Fin q → Fin m, (∏ v, p (d v)) * (f (d t) * g (d u)) = (∑ k, p k * f k) * ∑ k, p k * g k := by
  have h1 : ∀ d : Fin q → Fin m, (∏ v, p (d v)) * (f (d t) * g (d u)) =
      ∏ v, p (d v) * ((if v = t then f (d v) else 1) * (if v = u then g (d v) else 1)) := by
    intro d
    rw [Finset.prod_mul_distrib, Finset.prod_mul_distrib]
    simp
  rw [Finset.sum_congr rfl fun d _ => h1 d,
    sum_prod (fun v k => p k * ((if v = t then f k else 1) * (if v = u then g k else 1)))]
  rw [← Finset.mul_prod_erase Finset.univ _ (Finset.mem_univ t), ← Finset.mul_prod_erase _ _ (Finset.mem_erase.2 ⟨htu.symm, Finset.mem_univ u⟩)]
  rw [Finset.prod_eq_one, mul_one]
  · simp [htu, htu.symm]
  · intro v hv
    simp only [Finset.mem_erase, Finset.mem_univ, and_true] at hv
    simp [hv.1, hv.2, hp]

theorem total (hp : ∑ k, p k = 1) : ∑ d : Fin q → Fin m, ∏ t, p (d t) = 1 := by
  rw [sum_prod (fun _ k => p k)]; simp [hp]

/-- the mean square of the deviation of the average of `q` draws from its mean -/
theorem variance (hp : ∑ k, p k = 1) (hq : 0 < q) (f : Fin m → ℝ) :
    ∑ d : Fin q → Fin m, (∏ t, p (d t)) * ((∑ t, f (d t)) / q - ∑ k, p k * f k) ^ 2 =
      ((∑ k, p k * f k ^ 2) - (∑ k, p k * f k) ^ 2) / q := by
  set μ := ∑ k, p k * f k with hμ
  set h : Fin m → ℝ := fun k => f k - μ with hh
  have hq' : (q : ℝ) ≠ 0 := by positivity
  have h0 : ∑ k, p k * h k = 0 := by
    simp only [hh, mul_sub, Finset.sum_sub_distrib, ← Finset.sum_mul, hp]; ring
  have h2 : ∑ k, p k * (h k * h k) = (∑ k, p k * f k ^ 2) - μ ^ 2 := by
    have : ∀ k, p k * (h k * h k) = p k * f k ^ 2 - 2 * μ * (p k * f k) + μ ^ 2 * p k := fun k => by simp only [hh]; ring
    simp only [this, Finset.sum_add_distrib, Finset.sum_sub_distrib, ← Finset.mul_sum, hp, ← hμ]
    ring
  have h3 : ∀ d : Fin q → Fin m, (∏ t, p (d t)) * ((∑ t, f (d t)) / q - μ) ^ 2 =
      (∑ t, ∑ u, (∏ v, p (d v)) * (h (d t) * h (d u))) / q ^ 2 := by
    intro d
    have : (∑ t, f (d t)) / q - μ = (∑ t, h (d t)) / q := by
      simp only [hh, Finset.sum_sub_distrib, Finset.sum_const, Finset.card_univ, Fintype.card_fin, nsmul_eq_mul]
      field_simp
    rw [this, div_pow, sq (∑ t, h (d t)), Finset.sum_mul_sum, mul_div_assoc', Finset.mul_sum]
    simp only [Finset.mul_sum]
  rw [Finset.sum_congr rfl fun d _ => h3 d, ← Finset.sum_div, Finset.sum_comm]
  have h4 : ∀ t : Fin q, ∑ d : Fin q → Fin m, ∑ u, (∏ v, p (d v)) * (h (d t) * h (d u)) = (∑ k, p k * f k ^ 2) - μ ^ 2 := by
    intro t
    rw [Finset.sum_comm, Finset.sum_eq_single t]
    · rw [mean_one hp (fun k => h k * h k), h2]
    · intro u _ hu
      rw [mean_two hp h h hu.symm, h0, zero_mul]
    · simp
  rw [Finset.sum_congr rfl fun t _ => h4 t]
  simp only [Finset.sum_const, Finset.card_univ, Fintype.card_fin, nsmul_eq_mul]
  field_simp

open Classical in
/-- the probability of an event that forces a nonnegative function to be at least one -/
theorem markov (hp0 : ∀ k, 0 ≤ p k) (A : (Fin q → Fin m) → Prop) (F : (Fin q → Fin m) → ℝ) (hF : ∀ d, 0 ≤ F d)
    (hA : ∀ d, A d → 1 ≤ F d) : ∑ d with A d, ∏ t, p (d t) ≤ ∑ d, (∏ t, p (d t)) * F d := by
  rw [Finset.sum_filter]
  refine Finset.sum_le_sum fun d _ => ?_
  have h0 : 0 ≤ ∏ t, p (d t) := Finset.prod_nonneg fun t _ => hp0 _
  split
  · next h => nlinarith [hA d h]
  · exact mul_nonneg h0 (hF d)

/-- the exponential moment of the sum of the draws -/
theorem exp_moment (hp0 : ∀ k, 0 ≤ p k) (hp : ∑ k, p k = 1) {Z : Fin m → ℝ} {B : ℝ} (hB : 0 < B) (hZ : ∀ k, 0 ≤ Z k ∧ Z k ≤ B)
    {u : ℝ} (hu : |u| ≤ 1) :
    ∑ d : Fin q → Fin m, (∏ t, p (d t)) * Real.exp (u / B * ∑ t, Z (d t)) ≤ Real.exp (q * ((∑ k, p k * Z k) / B * (u + u ^ 2))) := by
  set μ := ∑ k, p k * Z k with hμ
  have hμ0 : 0 ≤ μ := Finset.sum_nonneg fun k _ => mul_nonneg (hp0 k) (hZ k).1
  have h1 : ∀ d : Fin q → Fin m, (∏ t, p (d t)) * Real.exp (u / B * ∑ t, Z (d t)) = ∏ t, p (d t) * Real.exp (u / B * Z (d t)) := by
    intro d
    rw [Finset.mul_sum, Real.exp_sum, Finset.prod_mul_distrib]
  rw [Finset.sum_congr rfl fun d _ => h1 d, sum_prod (fun _ k => p k * Real.exp (u / B * Z k)), Finset.prod_const, Finset.card_univ, Fintype.card_fin,
    Real.exp_nat_mul]
  refine pow_le_pow_left₀ (Finset.sum_nonneg fun k _ => mul_nonneg (hp0 k) (Real.exp_pos _).le) ?_ q
  have h2 : ∀ k, Real.exp (u / B * Z k) ≤ 1 + Z k / B * (Real.exp u - 1) := by
    intro k
    obtain ⟨a, b⟩ := hZ k
    have w1 : 0 ≤ 1 - Z k / B := by rw [sub_nonneg, div_le_one hB]; exact b
    have w2 : 0 ≤ Z k / B := by positivity
    have hc := convexOn_exp.2 (Set.mem_univ (0 : ℝ)) (Set.mem_univ u) w1 w2 (by ring)
    simp only [smul_eq_mul, mul_zero, zero_add, Real.exp_zero, mul_one] at hc
    calc Real.exp (u / B * Z k) = Real.exp (Z k / B * u) := by congr 1; field_simp
      _ ≤ _ := hc
      _ = _ := by ring
  have h3 : Real.exp u - 1 ≤ u + u ^ 2 := by
    have := (abs_le.1 (Real.abs_exp_sub_one_sub_id_le hu)).2
    linarith
  calc ∑ k, p k * Real.exp (u / B * Z k) ≤ ∑ k, p k * (1 + Z k / B * (Real.exp u - 1)) :=
        Finset.sum_le_sum fun k _ => mul_le_mul_of_nonneg_left (h2 k) (hp0 k)
    _ = 1 + μ / B * (Real.exp u - 1) := by
        have : ∀ k, p k * (1 + Z k / B * (Real.exp u - 1)) = p k + p k * Z k * ((Real.exp u - 1) / B) := fun k => by ring
        simp only [this, Finset.sum_add_distrib, ← Finset.sum_mul, hp, ← hμ]; ring
    _ ≤ 1 + μ / B * (u + u ^ 2) := by
        have := mul_le_mul_of_nonneg_left h3 (show 0 ≤ μ / B by positivity)
        linarith
    _ ≤ _ := by linarith [Real.add_one_le_exp (μ / B * (u + u ^ 2))]

open Classical in
/-- **Chernoff's inequality**: the average of `q` draws of numbers in `[0, B]` of mean `μ` is away from `μ` by more than `δ μ`
with a small probability -/
theorem chernoff (hp0 : ∀ k, 0 ≤ p k) (hp : ∑ k, p k = 1) {Z : Fin m → ℝ} {B : ℝ} (hB : 0 < B) (hZ : ∀ k, 0 ≤ Z k ∧ Z k ≤ B) (hq : 0 < q)
    {δ : ℝ} (h0 : 0 ≤ δ) (h2 : δ ≤ 2) :
    ∑ d : Fin q → Fin m with δ * (∑ k, p k * Z k) < |(∑ t, Z (d t)) / q - ∑ k, p k * Z k|, ∏ t, p (d t) ≤
      2 * Real.exp (-(q * ((∑ k, p k * Z k) / B * δ ^ 2) / 4)) := by
  set μ := ∑ k, p k * Z k with hμ
  have hμ0 : 0 ≤ μ := Finset.sum_nonneg fun k _ => mul_nonneg (hp0 k) (hZ k).1
  have hq' : (0 : ℝ) < q := by exact_mod_cast hq
  have hup : |δ / 2| ≤ 1 := by rw [abs_of_nonneg (by linarith)]; linarith
  have hum : |-(δ / 2)| ≤ 1 := by rw [abs_neg]; exact hup
  -- the two tails
  set F : ℝ → (Fin q → Fin m) → ℝ := fun u d => Real.exp (u / B * ∑ t, Z (d t)) * Real.exp (-(q * (μ / B) * (u + 2 * u ^ 2))) with hF
  have hm := markov (A := fun d => δ * μ < |(∑ t, Z (d t)) / q - μ|) hp0 (F := fun d => F (δ / 2) d + F (-(δ / 2)) d)
    (fun d => by positivity) (by
      intro d hd
      have hS : (∑ t, Z (d t)) = q * ((∑ t, Z (d t)) / q) := by field_simp
      rcases lt_abs.1 hd with h | h
      · have : 1 ≤ F (δ / 2) d := by
          simp only [hF]
          rw [← Real.exp_add]
          refine Real.one_le_exp ?_
          rw [hS]
          have : δ / 2 / B * (q * ((∑ t, Z (d t)) / q)) + -(q * (μ / B) * (δ / 2 + 2 * (δ / 2) ^ 2)) =
            q * (δ / 2 / B) * ((∑ t, Z (d t)) / q - μ - δ * μ) := by ring
          rw [this]
          exact mul_nonneg (by positivity) (by linarith)
        have h' : 0 < F (-(δ / 2)) d := by positivity
        linarith
      · have : 1 ≤ F (-(δ / 2)) d := by
          simp only [hF]
          rw [← Real.exp_add]
          refine Real.one_le_exp ?_
          rw [hS]
          have : -(δ / 2) / B * (q * ((∑ t, Z (d t)) / q)) + -(q * (μ / B) * (-(δ / 2) + 2 * (-(δ / 2)) ^ 2)) =
            q * (δ / 2 / B) * (-((∑ t, Z (d t)) / q - μ) - δ * μ) := by ring
          rw [this]
          exact mul_nonneg (by positivity) (by linarith)
        have h' : 0 < F (δ / 2) d := by positivity
        linarith)
  refine hm.trans ?_
  have hb : ∀ u : ℝ, |u| ≤ 1 → u ^ 2 = δ ^ 2 / 4 → ∑ d, (∏ t, p (d t)) * F u d ≤ Real.exp (-(q * (μ / B * δ ^ 2) / 4)) := by
    intro u hu hu2
    have := exp_moment (q := q) hp0 hp hB hZ hu
    have h5 : ∑ d, (∏ t, p (d t)) * F u d = (∑ d : Fin q → Fin m, (∏ t, p (d t)) * Real.exp (u / B * ∑ t, Z (d t))) *
        Real.exp (-(q * (μ / B) * (u + 2 * u ^ 2))) := by
      rw [Finset.sum_mul]
      exact Finset.sum_congr rfl fun d _ => by simp only [hF]; ring
    rw [h5]
    refine (mul_le_mul_of_nonneg_right this (Real.exp_pos _).le).trans ?_
    rw [← Real.exp_add]
    refine Real.exp_le_exp.2 (le_of_eq ?_)
    rw [← hμ]
    have : q * (μ / B * (u + u ^ 2)) + -(q * (μ / B) * (u + 2 * u ^ 2)) = -(q * (μ / B) * u ^ 2) := by ring
    rw [this, hu2]; ring
  simp only [mul_add, Finset.sum_add_distrib]
  have b1 := hb (δ / 2) hup (by ring)
  have b2 := hb (-(δ / 2)) hum (by ring)
  linarith

end PyGSP.Draws
