import Verif.Model.Approx
import Verif.Lemmas.Saw
import Mathlib.Analysis.SpecialFunctions.Integrals.Basic

/-! # Chebyshev approximation of a rectangle -/

namespace PyGSP

open Matrix Real Spec Polynomial

variable {n : ℕ}

/-! ### the loop of `cheby_rect` -/

/-- the coefficients used by `cheby_rect` -/
noncomputable def rectC (b1 b2 : ℝ) (k : ℕ) : ℝ :=
  if k = 0 then 2 / π * (b1 - b2) else 2 / (k * π) * (sin (k * b1) - sin (k * b2))

theorem rectCoeff_eq (x1 x2 : ℝ) : rectCoeff x1 x2 = rectC (arccos x1) (arccos x2) := by
  funext k
  unfold rectCoeff rectC
  rw [mul_comm π]

theorem rectLoop_eq (L : Matrix (Fin n) (Fin n) ℝ) {l : ℝ} (b1 b2 : ℝ) {ns : ℕ} (m : ℕ) (X : Matrix (Fin n) (Fin ns) ℝ) :
    (rectLoop L l b1 b2 m X).r = aeval (rescaled L l) (chebSeries (rectC b1 b2) (max m 2)) * X := by
  have h := chebLoop_invariant L l (q := 1) (fun _ => rectC b1 b2) X (m - 2)
  have e2 : (4 / l) • L - (2 : ℝ) • (1 : Matrix (Fin n) (Fin n) ℝ) = (2 : ℝ) • rescaled L l := by
    unfold rescaled
    rw [smul_sub, smul_smul]
    congr 2
    ring
  have e1 : (1 / 2 : ℝ) • (((2 : ℝ) • rescaled L l) * X) = rescaled L l * X := by
    rw [Matrix.smul_mul, smul_smul]; norm_num
  let f : ChebState n ns 1 → RectState n ns := fun st => ⟨st.old, st.cur, st.r 0⟩
  have hom : ∀ (ks : List ℕ), (∀ k ∈ ks, k ≠ 0) → ∀ st : ChebState n ns 1,
      ks.foldl (rectStep ((2 : ℝ) • rescaled L l) b1 b2) (f st) =
        f (ks.foldl (chebStep ((2 : ℝ) • rescaled L l) (fun _ => rectC b1 b2)) st) := by
    intro ks
    induction ks with
    | nil => intro _ st; rfl
    | cons k ks ih =>
      intro hk st
      rw [List.foldl_cons, List.foldl_cons, ← ih (fun j hj => hk j (List.mem_cons_of_mem _ hj))]
      congr 1
      have hk0 : k ≠ 0 := hk k List.mem_cons_self
      simp only [f, rectStep, chebStep, rectC, if_neg hk0]
  unfold rectLoop
  simp only [e1, e2]
  have hinit : (⟨X, rescaled L l * X, ((b1 - b2) / π) • X + (2 / π * (sin b1 - sin b2)) • (rescaled L l * X)⟩ : RectState n ns) =
      f { old := X, cur := rescaled L l * X,
          r := fun _ => ((1 / 2) * rectC b1 b2 0) • X + rectC b1 b2 1 • (rescaled L l * X) } := by
    simp only [f, rectC, if_true, one_ne_zero, if_false, Nat.cast_one, one_mul]
    congr 3
    ring
  rw [hinit, hom _ (fun k hk => by have := (List.mem_range'_1.1 hk).1; omega)]
  simp only at h
  rw [h]
  simp only [f]
  congr 3
  omega

/-! ### Chebyshev coefficients of a rectangle -/

/-- `1` on `[b2, b1]`, `0` elsewhere -/
noncomputable def box (b1 b2 θ : ℝ) : ℝ := if b2 ≤ θ ∧ θ ≤ b1 then 1 else 0

theorem box_eq (b1 b2 : ℝ) (f : ℝ → ℝ) : (fun θ => box b1 b2 θ * f θ) = (Set.Icc b2 b1).indicator f := by
  funext θ
  unfold box Set.indicator
  simp only [Set.mem_Icc]
  split_ifs <;> simp

theorem box_integral {b1 b2 : ℝ} (h0 : 0 ≤ b2) (h12 : b2 ≤ b1) (hp : b1 ≤ π) (f : ℝ → ℝ) :
    ∫ θ in (0 : ℝ)..π, box b1 b2 θ * f θ = ∫ θ in b2..b1, f θ := by
  rw [box_eq, intervalIntegral.integral_of_le pi_pos.le, intervalIntegral.integral_of_le h12,
    ← MeasureTheory.integral_Icc_eq_integral_Ioc, ← MeasureTheory.integral_Icc_eq_integral_Ioc,
    MeasureTheory.setIntegral_indicator measurableSet_Icc]
  congr 2
  ext θ
  simp only [Set.mem_inter_iff, Set.mem_Icc]
  constructor
  · rintro ⟨-, h⟩; exact h
  · rintro ⟨h1, h2⟩; exact ⟨⟨h0.trans h1, h2.trans hp⟩, h1, h2⟩

theorem box_integrable (b1 b2 : ℝ) {f : ℝ → ℝ} (hf : Continuous f) :
    IntervalIntegrable (fun θ => box b1 b2 θ * f θ) MeasureTheory.volume 0 π := by
  rw [box_eq]
  rw [intervalIntegrable_iff]
  exact ((hf.intervalIntegrable 0 π).def').indicator measurableSet_Icc

theorem integral_cos_nat (k : ℕ) (a b : ℝ) : ∫ θ in a..b, cos (k * θ) =
    if k = 0 then b - a else (sin (k * b) - sin (k * a)) / k := by
  split_ifs with h
  · subst h; simp
  · have hk : (k : ℝ) ≠ 0 := by exact_mod_cast h
    rw [intervalIntegral.integral_comp_mul_left (fun x => cos x) hk, integral_cos, smul_eq_mul, inv_mul_eq_div]

/-- the coefficients are the exact Chebyshev coefficients of the rectangle -/
theorem rectC_integral {b1 b2 : ℝ} (h0 : 0 ≤ b2) (h12 : b2 ≤ b1) (hp : b1 ≤ π) (k : ℕ) :
    ∫ θ in (0 : ℝ)..π, box b1 b2 θ * cos (k * θ) = π / 2 * rectC b1 b2 k := by
  rw [box_integral h0 h12 hp (fun θ => cos (k * θ)), integral_cos_nat]
  unfold rectC
  have := pi_ne_zero
  split_ifs with h
  · field_simp
  · have hk : (k : ℝ) ≠ 0 := by exact_mod_cast h
    field_simp

/-- orthogonality of the cosines -/
theorem cos_ortho (j k : ℕ) : ∫ θ in (0 : ℝ)..π, cos (j * θ) * cos (k * θ) =
    if j = k then (if j = 0 then π else π / 2) else 0 := by
  have key : ∀ i : ℤ, ∫ θ in (0 : ℝ)..π, cos (i * θ) = if i = 0 then π else 0 := by
    intro i
    split_ifs with h
    · subst h; simp
    · have hk : (i : ℝ) ≠ 0 := by exact_mod_cast h
      rw [intervalIntegral.integral_comp_mul_left (fun x => cos x) hk, integral_cos, sin_int_mul_pi]
      simp
  have e : ∀ θ : ℝ, cos (j * θ) * cos (k * θ) =
      (1 / 2) * cos (((j - k : ℤ) : ℝ) * θ) + (1 / 2) * cos (((j + k : ℤ) : ℝ) * θ) := by
    intro θ
    push_cast
    rw [sub_mul, add_mul, cos_sub, cos_add]
    ring
  simp only [e]
  rw [intervalIntegral.integral_add (by apply Continuous.intervalIntegrable; fun_prop)
    (by apply Continuous.intervalIntegrable; fun_prop), intervalIntegral.integral_const_mul,
    intervalIntegral.integral_const_mul, key, key]
  by_cases h : j = k
  · subst h
    rw [if_pos (by ring), if_pos rfl]
    by_cases h0 : j = 0
    · subst h0; simp; ring
    · rw [if_neg (by omega), if_neg h0]; ring
  · rw [if_neg (by omega), if_neg (by omega), if_neg h]; ring

/-- `c_0 / 2 + ∑_{1 ≤ k < M} c_k cos (k θ)` -/
noncomputable def cosPoly (c : ℕ → ℝ) (M : ℕ) (θ : ℝ) : ℝ := c 0 / 2 + ∑ k ∈ Finset.Ico 1 M, c k * cos (k * θ)

theorem cosPoly_cont (c : ℕ → ℝ) (M : ℕ) : Continuous (cosPoly c M) := by
  unfold cosPoly
  fun_prop

theorem cosPoly_sub (c d : ℕ → ℝ) (M : ℕ) (θ : ℝ) : cosPoly (fun k => c k - d k) M θ = cosPoly c M θ - cosPoly d M θ := by
  unfold cosPoly
  simp only [sub_mul, Finset.sum_sub_distrib]
  ring

/-- integral of a function against a cosine polynomial -/
theorem integral_mul_cosPoly (f : ℝ → ℝ) (hf : ∀ k : ℕ, IntervalIntegrable (fun θ => f θ * cos (k * θ)) MeasureTheory.volume 0 π)
    (c : ℕ → ℝ) (M : ℕ) : ∫ θ in (0 : ℝ)..π, f θ * cosPoly c M θ =
      c 0 / 2 * (∫ θ in (0 : ℝ)..π, f θ * cos ((0 : ℕ) * θ)) + ∑ k ∈ Finset.Ico 1 M, c k * ∫ θ in (0 : ℝ)..π, f θ * cos (k * θ) := by
  have e : ∀ θ, f θ * cosPoly c M θ = c 0 / 2 * (f θ * cos ((0 : ℕ) * θ)) + ∑ k ∈ Finset.Ico 1 M, c k * (f θ * cos (k * θ)) := by
    intro θ
    unfold cosPoly
    rw [mul_add, Finset.mul_sum]
    congr 1
    · simp; ring
    · exact Finset.sum_congr rfl fun k _ => by ring
  simp only [e]
  rw [intervalIntegral.integral_add ((hf 0).const_mul _), intervalIntegral.integral_const_mul,
    intervalIntegral.integral_finset_sum]
  · simp only [intervalIntegral.integral_const_mul]
  · exact fun k _ => (hf k).const_mul _
  · have := IntervalIntegrable.sum (μ := MeasureTheory.volume) (a := 0) (b := π) (Finset.Ico 1 M)
      (f := fun (k : ℕ) (θ : ℝ) => c k * (f θ * cos (k * θ))) fun k _ => (hf k).const_mul _
    simpa only [Finset.sum_fn] using this

theorem cosPoly_coeff (c : ℕ → ℝ) {M k : ℕ} (hk : k < M) :
    ∫ θ in (0 : ℝ)..π, cos (k * θ) * cosPoly c M θ = π / 2 * c k := by
  rw [integral_mul_cosPoly _ (fun j => by apply Continuous.intervalIntegrable; fun_prop)]
  simp only [cos_ortho]
  by_cases h : k = 0
  · subst h
    simp only [if_true]
    rw [Finset.sum_eq_zero fun j hj => ?_]
    · ring
    · have := (Finset.mem_Ico.1 hj).1
      rw [if_neg (by omega), mul_zero]
  · rw [if_neg h, mul_zero, zero_add, Finset.sum_eq_single k]
    · rw [if_pos rfl, if_neg h]; ring
    · intro j _ hj
      rw [if_neg hj.symm, mul_zero]
    · intro h'
      exact absurd (Finset.mem_Ico.2 ⟨by omega, hk⟩) h'

/-- **Pythagoras**: the squared error of any cosine polynomial is the one of the Chebyshev coefficients plus the squared
distance to them. -/
theorem box_pythagoras {b1 b2 : ℝ} (h0 : 0 ≤ b2) (h12 : b2 ≤ b1) (hp : b1 ≤ π) {M : ℕ} (hM : 0 < M) (c : ℕ → ℝ) :
    ∫ θ in (0 : ℝ)..π, (box b1 b2 θ - cosPoly c M θ) ^ 2 =
      (∫ θ in (0 : ℝ)..π, (box b1 b2 θ - cosPoly (rectC b1 b2) M θ) ^ 2) +
      ∫ θ in (0 : ℝ)..π, (cosPoly c M θ - cosPoly (rectC b1 b2) M θ) ^ 2 := by
  set a := rectC b1 b2
  set d : ℕ → ℝ := fun k => a k - c k
  have hbi : ∀ {f : ℝ → ℝ}, Continuous f → IntervalIntegrable (fun θ => box b1 b2 θ * f θ) MeasureTheory.volume 0 π :=
    fun hf => box_integrable b1 b2 hf
  have hci : ∀ {f : ℝ → ℝ}, Continuous f → IntervalIntegrable f MeasureTheory.volume 0 π :=
    fun hf => hf.intervalIntegrable 0 π
  have hd := cosPoly_cont d M
  have ha := cosPoly_cont a M
  have hei : ∀ {f : ℝ → ℝ}, Continuous f →
      IntervalIntegrable (fun θ => (box b1 b2 θ - cosPoly a M θ) * f θ) MeasureTheory.volume 0 π := by
    intro f hf
    simp only [sub_mul]
    exact (hbi hf).sub (hci (f := fun θ => cosPoly a M θ * f θ) (ha.mul hf))
  have hz : ∫ θ in (0 : ℝ)..π, (box b1 b2 θ - cosPoly a M θ) * cosPoly d M θ = 0 := by
    rw [integral_mul_cosPoly _ (fun k => hei (by fun_prop))]
    have hk : ∀ k < M, ∫ θ in (0 : ℝ)..π, (box b1 b2 θ - cosPoly a M θ) * cos (k * θ) = 0 := by
      intro k hk
      simp only [sub_mul]
      have hck : Continuous fun θ : ℝ => cos (k * θ) := by fun_prop
      have hak : Continuous fun θ : ℝ => cosPoly a M θ * cos (k * θ) := ha.mul hck
      rw [intervalIntegral.integral_sub (hbi hck) (hci hak), rectC_integral h0 h12 hp]
      simp only [mul_comm (cosPoly a M _)]
      rw [cosPoly_coeff _ hk, sub_self]
    rw [hk 0 hM, Finset.sum_eq_zero fun k hk' => by rw [hk k (Finset.mem_Ico.1 hk').2, mul_zero]]
    ring
  have hsq : IntervalIntegrable (fun θ => (box b1 b2 θ - cosPoly a M θ) ^ 2) MeasureTheory.volume 0 π := by
    have e : ∀ θ, (box b1 b2 θ - cosPoly a M θ) ^ 2 = box b1 b2 θ * (1 - 2 * cosPoly a M θ) + cosPoly a M θ ^ 2 := by
      intro θ
      have : box b1 b2 θ ^ 2 = box b1 b2 θ := by unfold box; split_ifs <;> norm_num
      linear_combination this
    simp only [e]
    exact (hbi (by fun_prop)).add (hci (by fun_prop))
  have e : ∀ θ, (box b1 b2 θ - cosPoly c M θ) ^ 2 = (box b1 b2 θ - cosPoly a M θ) ^ 2 +
      2 * ((box b1 b2 θ - cosPoly a M θ) * cosPoly d M θ) + (cosPoly c M θ - cosPoly a M θ) ^ 2 := by
    intro θ
    rw [cosPoly_sub]; ring
  simp only [e]
  have hc := cosPoly_cont c M
  rw [intervalIntegral.integral_add (hsq.add ((hei hd).const_mul 2)) (hci (by fun_prop)),
    intervalIntegral.integral_add hsq ((hei hd).const_mul 2), intervalIntegral.integral_const_mul, hz, mul_zero, add_zero]

end PyGSP
