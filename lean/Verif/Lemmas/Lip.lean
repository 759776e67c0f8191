import Mathlib.Analysis.Calculus.ContDiff.Basic
import Mathlib.Analysis.Calculus.ContDiff.RCLike
import Mathlib.Analysis.Calculus.MeanValue
import Mathlib.Analysis.SpecialFunctions.Trigonometric.Deriv
import Mathlib.Analysis.SpecialFunctions.Trigonometric.Inverse
import Mathlib.Analysis.SpecialFunctions.Trigonometric.Bounds
import Mathlib.Analysis.SpecialFunctions.Log.Basic
import Mathlib.Analysis.SpecialFunctions.Sqrt

/-! # Functions that are Lipschitz on a bounded interval -/

namespace PyGSP

open Real

/-- `φ` is Lipschitz on `[0, l]`, with some constant. -/
def LipB (l : ℝ) (φ : ℝ → ℝ) : Prop := ∃ K, 0 ≤ K ∧ ∀ x y, 0 ≤ x → x ≤ l → 0 ≤ y → y ≤ l → |φ x - φ y| ≤ K * |x - y|

namespace LipB

variable {l : ℝ} {φ ψ : ℝ → ℝ}

theorem congr (h : LipB l φ) (he : ∀ x, 0 ≤ x → x ≤ l → ψ x = φ x) : LipB l ψ := by
  obtain ⟨K, h0, hK⟩ := h
  exact ⟨K, h0, fun x y a b c d => by rw [he x a b, he y c d]; exact hK x y a b c d⟩

theorem const (c : ℝ) : LipB l fun _ => c := ⟨0, le_rfl, by simp⟩

theorem affine (a b : ℝ) : LipB l fun x => a * x + b :=
  ⟨|a|, abs_nonneg _, fun x y _ _ _ _ => by rw [show a * x + b - (a * y + b) = a * (x - y) by ring, abs_mul]⟩

theorem comp {g : ℝ → ℝ} {C : ℝ} (hC : 0 ≤ C) (hg : ∀ x y, |g x - g y| ≤ C * |x - y|) (h : LipB l φ) : LipB l fun x => g (φ x) := by
  obtain ⟨K, h0, hK⟩ := h
  refine ⟨C * K, mul_nonneg hC h0, fun x y a b c d => (hg _ _).trans ?_⟩
  rw [mul_assoc]
  exact mul_le_mul_of_nonneg_left (hK x y a b c d) hC

theorem add (h1 : LipB l φ) (h2 : LipB l ψ) : LipB l fun x => φ x + ψ x := by
  obtain ⟨K, h0, hK⟩ := h1
  obtain ⟨K', h0', hK'⟩ := h2
  refine ⟨K + K', add_nonneg h0 h0', fun x y a b c d => ?_⟩
  rw [show φ x + ψ x - (φ y + ψ y) = (φ x - φ y) + (ψ x - ψ y) by ring, add_mul]
  exact (abs_add_le _ _).trans (add_le_add (hK x y a b c d) (hK' x y a b c d))

theorem bounded (h : LipB l φ) : ∃ B, 0 < B ∧ ∀ x, 0 ≤ x → x ≤ l → |φ x| ≤ B := by
  obtain ⟨K, h0, hK⟩ := h
  refine ⟨|φ 0| + K * |l| + 1, by positivity, fun x a b => ?_⟩
  have h1 := hK x 0 a b le_rfl (a.trans b)
  have h2 : |x - 0| ≤ |l| := by rw [sub_zero, abs_of_nonneg a, abs_of_nonneg (a.trans b)]; exact b
  have h3 : |φ x| ≤ |φ 0| + |φ x - φ 0| := by
    have := abs_add_le (φ 0) (φ x - φ 0)
    rwa [show φ 0 + (φ x - φ 0) = φ x by ring] at this
  have := mul_le_mul_of_nonneg_left h2 h0
  linarith

theorem mul (h1 : LipB l φ) (h2 : LipB l ψ) : LipB l fun x => φ x * ψ x := by
  obtain ⟨B, hB, hb⟩ := h1.bounded
  obtain ⟨B', hB', hb'⟩ := h2.bounded
  obtain ⟨K, h0, hK⟩ := h1
  obtain ⟨K', h0', hK'⟩ := h2
  refine ⟨B * K' + B' * K, by positivity, fun x y a b c d => ?_⟩
  rw [show φ x * ψ x - φ y * ψ y = φ x * (ψ x - ψ y) + ψ y * (φ x - φ y) by ring, add_mul]
  refine (abs_add_le _ _).trans (add_le_add ?_ ?_)
  · rw [abs_mul, mul_assoc]
    exact mul_le_mul (hb x a b) (hK' x y a b c d) (abs_nonneg _) hB.le
  · rw [abs_mul, mul_assoc]
    exact mul_le_mul (hb' y c d) (hK x y a b c d) (abs_nonneg _) hB'.le

theorem const_mul (c : ℝ) (h : LipB l φ) : LipB l fun x => c * φ x := (LipB.const c).mul h

theorem abs (h : LipB l φ) : LipB l fun x => |φ x| :=
  h.comp (g := fun x => |x|) zero_le_one fun x y => by rw [one_mul]; exact abs_abs_sub_abs_le_abs_sub x y

theorem smooth {g : ℝ → ℝ} (hg : ContDiff ℝ 1 g) (h : LipB l φ) : LipB l fun x => g (φ x) := by
  obtain ⟨B, hB, hb⟩ := h.bounded
  obtain ⟨K, h0, hK⟩ := h
  obtain ⟨C, hC⟩ := (isCompact_Icc (a := -B) (b := B)).exists_bound_of_continuousOn (hg.continuous_deriv le_rfl).continuousOn
  have hC0 : 0 ≤ C := (norm_nonneg _).trans (hC 0 ⟨by linarith, by linarith⟩)
  refine ⟨C * K, mul_nonneg hC0 h0, fun x y a b c d => ?_⟩
  have h1 := (convex_Icc (-B) B).norm_image_sub_le_of_norm_deriv_le (fun z _ => (hg.differentiable one_ne_zero).differentiableAt) hC
    (abs_le.1 (hb y c d)) (abs_le.1 (hb x a b))
  rw [norm_eq_abs, norm_eq_abs] at h1
  refine h1.trans ?_
  rw [mul_assoc]
  exact mul_le_mul_of_nonneg_left (hK x y a b c d) hC0

theorem of_smooth {g : ℝ → ℝ} (hg : ContDiff ℝ 1 g) : LipB l g :=
  (smooth hg (affine (l := l) 1 0)).congr fun x _ _ => by simp

theorem max (h1 : LipB l φ) (a : ℝ) : LipB l fun x => Max.max a (φ x) :=
  h1.comp (g := fun x => Max.max a x) zero_le_one fun x y => by rw [one_mul]; exact abs_max_sub_max_le_abs' a x y
where
  abs_max_sub_max_le_abs' (a x y : ℝ) : |Max.max a x - Max.max a y| ≤ |x - y| := by
    have := abs_max_sub_max_le_max a x a y
    simpa using this

theorem min (h1 : LipB l φ) (a : ℝ) : LipB l fun x => Min.min a (φ x) :=
  h1.comp (g := fun x => Min.min a x) zero_le_one fun x y => by
    rw [one_mul]
    have := abs_min_sub_min_le_max a x a y
    simpa using this

theorem log {a : ℝ} (ha : 0 < a) (h : LipB l φ) (hp : ∀ x, a ≤ φ x) : LipB l fun x => Real.log (φ x) := by
  obtain ⟨K, h0, hK⟩ := h
  have key : ∀ u v, a ≤ u → a ≤ v → Real.log u - Real.log v ≤ |u - v| / a := by
    intro u v hu hv
    have hu0 := ha.trans_le hu
    have hv0 := ha.trans_le hv
    rw [← Real.log_div hu0.ne' hv0.ne']
    refine (Real.log_le_sub_one_of_pos (div_pos hu0 hv0)).trans ?_
    rw [div_sub_one hv0.ne', div_le_div_iff₀ hv0 ha]
    have h1 := le_abs_self (u - v)
    have h2 := abs_nonneg (u - v)
    nlinarith
  refine ⟨K / a, by positivity, fun x y b c d e => ?_⟩
  have h1 := hK x y b c d e
  have h2 : |φ x - φ y| / a ≤ K / a * |x - y| := by
    rw [div_mul_eq_mul_div]
    exact div_le_div_of_nonneg_right h1 ha.le
  refine (abs_sub_le_iff.2 ⟨key _ _ (hp x) (hp y), ?_⟩).trans h2
  rw [abs_sub_comm]
  exact key _ _ (hp y) (hp x)

/-- `√(1 - sin²)` -/
theorem sqrt_sin {θ : ℝ → ℝ} (h : LipB l θ) : LipB l fun x => √(1 - sin (θ x) ^ 2) :=
  ((h.smooth (contDiff_cos)).abs).congr fun x _ _ => by rw [← sqrt_sq_eq_abs, cos_sq']

theorem sqrt_cos {θ : ℝ → ℝ} (h : LipB l θ) : LipB l fun x => √(1 - cos (θ x) ^ 2) :=
  ((h.smooth (contDiff_sin)).abs).congr fun x _ _ => by rw [← sqrt_sq_eq_abs, sin_sq]

/-- Chebyshev functions `cos (t arccos y)` are Lipschitz away from `-1`. -/
theorem cos_arccos (t : ℝ) {δ : ℝ} (hδ : 0 < δ) (h : LipB l φ) (h1 : ∀ x, 0 ≤ x → x ≤ l → -1 + δ ≤ φ x ∧ φ x ≤ 1) :
    LipB l fun x => cos (t * arccos (φ x)) := by
  obtain ⟨K, h0, hK⟩ := h
  have hpi := pi_pos
  set c := √(δ / 2) with hc
  have hc0 : 0 < c := sqrt_pos.2 (by linarith)
  have hcos : ∀ y, -1 + δ ≤ y → y ≤ 1 → c ≤ cos (arccos y / 2) := fun y ha hb => by
    rw [cos_half (by linarith [arccos_nonneg y]) (arccos_le_pi y), Real.cos_arccos (by linarith) hb]
    exact sqrt_le_sqrt (by linarith)
  have hsin : ∀ u, 0 ≤ u → u ≤ π → c ≤ cos (u / 2) → 2 / π * u * c ≤ sin u := fun u ha hb hcu => by
    have e : sin u = 2 * sin (u / 2) * cos (u / 2) := by rw [← sin_two_mul]; congr 1; ring
    have h2 := mul_le_sin (x := u / 2) (by linarith) (by linarith)
    rw [e]
    have h3 : 0 ≤ 2 / π * (u / 2) := by positivity
    nlinarith [mul_le_mul h2 hcu hc0.le (h3.trans h2)]
  have key : ∀ u v, -1 + δ ≤ u → u ≤ 1 → -1 + δ ≤ v → v ≤ 1 →
      |cos (t * arccos u) - cos (t * arccos v)| ≤ t ^ 2 * π ^ 2 / (4 * c) * |u - v| := by
    intro u v hu hu1 hv hv1
    have hcu := hcos u hu hu1
    have hcv := hcos v hv hv1
    have eu := Real.cos_arccos (by linarith) hu1
    have ev := Real.cos_arccos (by linarith) hv1
    have pu := arccos_nonneg u
    have pv := arccos_nonneg v
    have qu := arccos_le_pi u
    have qv := arccos_le_pi v
    revert hcu hcv eu ev pu pv qu qv
    generalize arccos u = p
    generalize arccos v = q
    intro hcu hcv eu ev pu pv qu qv
    subst eu ev
    rw [cos_sub_cos, cos_sub_cos]
    rw [abs_mul, abs_mul, abs_mul, abs_mul]
    -- sin ((p + q) / 2) ≥ (2 / π) c (p + q) / 2
    have hm : c ≤ cos ((p + q) / 2 / 2) := by
      rcases le_total p q with hpq | hpq
      · exact hcv.trans (cos_le_cos_of_nonneg_of_le_pi (by linarith) (by linarith) (by linarith))
      · exact hcu.trans (cos_le_cos_of_nonneg_of_le_pi (by linarith) (by linarith) (by linarith))
    have s1 := hsin ((p + q) / 2) (by linarith) (by linarith) hm
    have s2 : 2 / π * (|p - q| / 2) ≤ |sin ((p - q) / 2)| := by
      have hle : |p - q| / 2 ≤ π / 2 := by
        have := abs_le.2 (⟨by linarith, by linarith⟩ : -π ≤ p - q ∧ p - q ≤ π)
        linarith
      have := mul_le_sin (x := |p - q| / 2) (by positivity) hle
      refine this.trans ?_
      rcases abs_cases (p - q) with ⟨h, -⟩ | ⟨h, -⟩
      · rw [h]; exact le_abs_self _
      · rw [h, show -(p - q) / 2 = -((p - q) / 2) by ring, sin_neg]; exact neg_le_abs _
    have a1 : |sin ((t * p + t * q) / 2)| ≤ |t| * ((p + q) / 2) := by
      refine (abs_sin_le_abs).trans ?_
      rw [show (t * p + t * q) / 2 = t * ((p + q) / 2) by ring, abs_mul, abs_of_nonneg (by linarith : 0 ≤ (p + q) / 2)]
    have a2 : |sin ((t * p - t * q) / 2)| ≤ |t| * (|p - q| / 2) := by
      refine (abs_sin_le_abs).trans ?_
      rw [show (t * p - t * q) / 2 = t * ((p - q) / 2) by ring, abs_mul, abs_div, abs_of_pos (by norm_num : (0 : ℝ) < 2)]
    have s1' : 2 / π * ((p + q) / 2) * c ≤ |sin ((p + q) / 2)| := s1.trans (le_abs_self _)
    rw [show |(-2 : ℝ)| = 2 by norm_num]
    have hs : 0 ≤ (p + q) / 2 := by linarith
    have hd : 0 ≤ |p - q| / 2 := by positivity
    generalize (p + q) / 2 = A at *
    generalize |p - q| / 2 = D at *
    calc 2 * |sin ((t * p + t * q) / 2)| * |sin ((t * p - t * q) / 2)| ≤ 2 * (|t| * A) * (|t| * D) := by gcongr
      _ = 2 * t ^ 2 * (A * D) := by rw [← sq_abs t]; ring
      _ = t ^ 2 * π ^ 2 / (4 * c) * (2 * (2 / π * A * c) * (2 / π * D)) := by field_simp; ring
      _ ≤ _ := by gcongr
  refine ⟨t ^ 2 * π ^ 2 / (4 * c) * K, by positivity, fun x y a b d e => ?_⟩
  refine (key _ _ (h1 x a b).1 (h1 x a b).2 (h1 y d e).1 (h1 y d e).2).trans ?_
  rw [mul_assoc]
  exact mul_le_mul_of_nonneg_left (hK x y a b d e) (by positivity)

end LipB

end PyGSP
