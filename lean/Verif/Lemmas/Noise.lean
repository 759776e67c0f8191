import Verif.Lemmas.RandomDraws
import Mathlib.Probability.Independence.Integration

/-!
# Products of centred independent indicators
-/

namespace PyGSP.Random

open Spec MeasureTheory

variable {ι : Type} [Fintype ι] (idx : ι → ℕ) (p : ι → ℝ)

/-- a centred indicator -/
noncomputable def centred (e : ι) (u : ℕ → ℝ) : ℝ := hit idx p e u - p e

theorem centred_measurable (e : ι) : Measurable (centred idx p e) := (hit_measurable idx p e).sub_const _

variable {idx p}

theorem centred_abs (hp : ∀ e, 0 ≤ p e ∧ p e ≤ 1) (e : ι) (u : ℕ → ℝ) : |centred idx p e u| ≤ 1 := by
  obtain ⟨h0, h1⟩ := hit_mem idx p e u
  obtain ⟨q0, q1⟩ := hp e
  rw [centred, abs_le]
  constructor <;> linarith

theorem integrable_of_abs {f : (ℕ → ℝ) → ℝ} (hf : Measurable f) (h : ∀ u, |f u| ≤ 1) : Integrable f draws :=
  Integrable.of_mem_Icc (-1) 1 hf.aemeasurable (.of_forall fun u => abs_le.1 (h u))

theorem centred_integral (hp : ∀ e, 0 ≤ p e ∧ p e ≤ 1) (e : ι) : ∫ u, centred idx p e u ∂draws = 0 := by
  unfold centred
  rw [integral_sub (Integrable.of_mem_Icc 0 1 (hit_measurable _ _ e).aemeasurable (.of_forall fun u => hit_mem _ _ e u)) (integrable_const _), hit_integral _ _ hp]
  simp

theorem centred_sq (hp : ∀ e, 0 ≤ p e ∧ p e ≤ 1) (e : ι) : ∫ u, centred idx p e u ^ 2 ∂draws = p e * (1 - p e) := by
  have h : ∀ u, centred idx p e u ^ 2 = (1 - 2 * p e) * hit idx p e u + p e ^ 2 := by
    intro u
    unfold centred hit
    split <;> ring
  simp only [h]
  rw [integral_add ((Integrable.of_mem_Icc 0 1 (hit_measurable _ _ e).aemeasurable (.of_forall fun u => hit_mem _ _ e u)).const_mul _) (integrable_const _),
    integral_const_mul, hit_integral _ _ hp]
  simp
  ring

theorem centred_indep (hidx : Function.Injective idx) : ProbabilityTheory.iIndepFun (centred idx p) draws :=
  (hit_indep idx hidx p).comp (fun e t => t - p e) fun e => by fun_prop

/-- a factor that occurs once makes the mean zero -/
theorem centred_one (hidx : Function.Injective idx) (hp : ∀ e, 0 ≤ p e ∧ p e ≤ 1) {e a b c : ι} (ha : a ≠ e) (hb : b ≠ e) (hc : c ≠ e) :
    ∫ u, centred idx p e u * (centred idx p a u * centred idx p b u * centred idx p c u) ∂draws = 0 := by
  classical
  have h := (centred_indep (p := p) hidx).indepFun_finset {e} {a, b, c} (by
    rw [Finset.disjoint_singleton_left]
    simp only [Finset.mem_insert, Finset.mem_singleton, not_or]
    exact ⟨ha.symm, hb.symm, hc.symm⟩) (centred_measurable idx p)
  have m1 : Measurable fun f : ({e} : Finset ι) → ℝ => f ⟨e, Finset.mem_singleton_self e⟩ := measurable_pi_apply _
  have m2 : Measurable fun f : ({a, b, c} : Finset ι) → ℝ => f ⟨a, by simp⟩ * f ⟨b, by simp⟩ * f ⟨c, by simp⟩ := by fun_prop
  have h2 := h.comp m1 m2
  have h3 := h2.integral_fun_mul_eq_mul_integral (centred_measurable idx p e).aestronglyMeasurable
    (((centred_measurable idx p a).mul (centred_measurable idx p b)).mul (centred_measurable idx p c)).aestronglyMeasurable
  simp only [Function.comp_def] at h3
  rw [centred_integral hp, zero_mul] at h3
  exact h3

theorem centred_two (hidx : Function.Injective idx) (hp : ∀ e, 0 ≤ p e ∧ p e ≤ 1) {e a : ι} (ha : e ≠ a) :
    ∫ u, centred idx p e u * centred idx p a u ∂draws = 0 := by
  have h := ((centred_indep (p := p) hidx).indepFun ha).integral_fun_mul_eq_mul_integral (centred_measurable idx p e).aestronglyMeasurable
    (centred_measurable idx p a).aestronglyMeasurable
  rw [centred_integral hp, zero_mul] at h
  exact h

end PyGSP.Random
