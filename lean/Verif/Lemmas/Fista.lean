import Verif.Model.Fista
import Verif.Props.Simplex
import Verif.Props.Localisation

/-! # The accelerated solver -/

namespace PyGSP.Fista

open Matrix Spec Learning

variable {n d : ℕ} {L : Matrix (Fin n) (Fin n) ℝ} {m : Fin n → Bool} {Y : Matrix (Fin n) (Fin d) ℝ} {tau lmax : ℝ}

theorem convex (hL : Lᵀ = L) (hp : PSD L) (ht : 0 < tau) (A B : Matrix (Fin n) (Fin d) ℝ) {a b : ℝ} (ha : 0 ≤ a) (hb : 0 ≤ b) (hab : a + b = 1) :
    classObjective L m Y tau (a • A + b • B) ≤ a * classObjective L m Y tau A + b * classObjective L m Y tau B := by
  obtain ⟨P, hP⟩ : ∃ P, P = a • A + b • B := ⟨_, rfl⟩
  rw [← hP]
  have h1 := classObjective_add hL m Y tau P (A - P)
  have h2 := classObjective_add hL m Y tau P (B - P)
  rw [add_sub_cancel] at h1 h2
  have q1 := curvature_nonneg hp m ht (A - P)
  have q2 := curvature_nonneg hp m ht (B - P)
  have h3 : a * (∑ v, ∑ j, smoothGrad L m Y tau P v j * (A - P) v j) + b * (∑ v, ∑ j, smoothGrad L m Y tau P v j * (B - P) v j) = 0 := by
    rw [Finset.mul_sum, Finset.mul_sum, ← Finset.sum_add_distrib]
    refine Finset.sum_eq_zero fun v _ => ?_
    rw [Finset.mul_sum, Finset.mul_sum, ← Finset.sum_add_distrib]
    refine Finset.sum_eq_zero fun j _ => ?_
    have e : P v j = a * A v j + b * B v j := by rw [hP]; simp
    simp only [Matrix.sub_apply]
    have : a * (A v j - P v j) + b * (B v j - P v j) = 0 := by
      rw [e]; linear_combination (-(a * A v j + b * B v j)) * hab
    linear_combination smoothGrad L m Y tau P v j * this
  have e1 := mul_nonneg ha q1
  have e2 := mul_nonneg hb q2
  have e3 : a * classObjective L m Y tau A + b * classObjective L m Y tau B =
      (a + b) * classObjective L m Y tau P + (a * curvature L m tau (A - P) + b * curvature L m tau (B - P)) := by
    rw [h1, h2]; linear_combination h3
  rw [e3, hab]; linarith

theorem simplex_convex {A B : Matrix (Fin n) (Fin d) ℝ} (hA : RowsInSimplex A) (hB : RowsInSimplex B) {a b : ℝ} (ha : 0 ≤ a) (hb : 0 ≤ b)
    (hab : a + b = 1) : RowsInSimplex (a • A + b • B) := by
  intro v
  refine ⟨fun j => ?_, ?_⟩
  · have := mul_nonneg ha ((hA v).1 j)
    have := mul_nonneg hb ((hB v).1 j)
    simp only [Matrix.add_apply, Matrix.smul_apply, smul_eq_mul]
    linarith
  · simp only [Matrix.add_apply, Matrix.smul_apply, smul_eq_mul]
    rw [Finset.sum_add_distrib, ← Finset.mul_sum, ← Finset.mul_sum, (hA v).2, (hB v).2]
    linarith

/-- the squared norm of `t x - (t - 1) p - z` -/
noncomputable def drift (t : ℝ) (X P Z : Matrix (Fin n) (Fin d) ℝ) : ℝ := ∑ v, ∑ j, (t * X v j - (t - 1) * P v j - Z v j) ^ 2

theorem drift_nonneg (t : ℝ) (X P Z : Matrix (Fin n) (Fin d) ℝ) : 0 ≤ drift t X P Z :=
  Finset.sum_nonneg fun _ _ => Finset.sum_nonneg fun _ _ => sq_nonneg _

/-- the numbers of the acceleration -/
theorem next_t {t : ℝ} (ht : 0 ≤ t) : ((1 + √(1 + 4 * t ^ 2)) / 2) ^ 2 - (1 + √(1 + 4 * t ^ 2)) / 2 = t ^ 2 ∧ t + 1 / 2 ≤ (1 + √(1 + 4 * t ^ 2)) / 2 := by
  have h1 := Real.sq_sqrt (by positivity : 0 ≤ 1 + 4 * t ^ 2)
  have h2 : 2 * t ≤ √(1 + 4 * t ^ 2) := Real.le_sqrt_of_sq_le (by nlinarith)
  constructor
  · nlinarith
  · linarith

/-- the invariant after `k` iterations -/
structure Inv (L : Matrix (Fin n) (Fin n) ℝ) (m : Fin n → Bool) (Y : Matrix (Fin n) (Fin d) ℝ) (tau lmax : ℝ) (Z : Matrix (Fin n) (Fin d) ℝ) (k : ℕ)
    (st : FistaState n d) : Prop where
  rows : RowsInSimplex st.sol
  big : ((k : ℝ) + 2) / 2 ≤ st.t
  gap : st.t ^ 2 * (classObjective L m Y tau st.sol - classObjective L m Y tau Z) + (1 + tau * lmax) * drift st.t st.sol st.prev Z ≤
    5 * ((1 + tau * lmax) * sqDist Z Y)

section
variable {idx : (Fin d → ℝ) → Fin d → Fin d} (hidx : IsArgsort idx) (hd : 0 < d) (hL : Lᵀ = L) (hp : PSD L) (h0 : 0 ≤ lmax)
  (hmax : ∀ l, IsEigenvalue L l → l ≤ lmax) (ht : 0 < tau) {Z : Matrix (Fin n) (Fin d) ℝ}
include hidx hd hL hp h0 hmax ht

/-- the first iteration -/
theorem first_inv (hmin : ∀ X, RowsInSimplex X → classObjective L m Y tau Z ≤ classObjective L m Y tau X) (hZ : RowsInSimplex Z) (t : ℝ) :
    ∃ st, accelStep idx L m Y tau lmax 1 ⟨Y, Y, t⟩ = .ok st ∧ Inv L m Y tau lmax Z 1 st := by
  obtain ⟨X, h1, h2, h3⟩ := step_ineq hidx hd hL hp h0 hmax m Y ht Y
  have hc : 0 < 1 + tau * lmax := by have := mul_nonneg ht.le h0; linarith
  obtain ⟨n1, n2⟩ := next_t (t := 1) one_pos.le
  refine ⟨⟨X, Y, (1 + √(1 + 4 * 1 ^ 2)) / 2⟩, ?_, h2, ?_, ?_⟩
  · unfold accelStep
    simp only [if_true, sub_self, zero_div, zero_smul, add_zero]
    rw [h1]
  · push_cast; linarith
  · simp only
    obtain ⟨t', ht'⟩ : ∃ t' : ℝ, t' = (1 + √(1 + 4 * 1 ^ 2)) / 2 := ⟨_, rfl⟩
    rw [← ht'] at n1 n2 ⊢
    have g1 := h3 Z hZ
    have g2 := hmin X h2
    have hdr : drift t' X Y Z ≤ t' ^ 2 * sqDist Z X + t' * (t' - 1) * (sqDist Z X + sqDist Z Y) + (t' - 1) ^ 2 * sqDist Z Y := by
      unfold drift sqDist
      simp only [mul_add, Finset.mul_sum, ← Finset.sum_add_distrib]
      refine Finset.sum_le_sum fun v _ => Finset.sum_le_sum fun j _ => ?_
      have : 0 ≤ t' * (t' - 1) := mul_nonneg (by linarith) (by linarith)
      nlinarith [mul_nonneg this (sq_nonneg ((Z v j - X v j) + (Z v j - Y v j)))]
    have hb : (1 + tau * lmax) * sqDist Z X ≤ (1 + tau * lmax) * sqDist Z Y := by linarith
    have e1 : 0 ≤ t' * (t' - 1) := mul_nonneg (by linarith) (by linarith)
    have e2 := mul_le_mul_of_nonneg_left hdr hc.le
    have e3 := mul_le_mul_of_nonneg_left hb e1
    have e4 : t' ^ 2 * (classObjective L m Y tau X - classObjective L m Y tau Z) ≤ t' ^ 2 * ((1 + tau * lmax) * sqDist Z Y - (1 + tau * lmax) * sqDist Z X) :=
      mul_le_mul_of_nonneg_left (by linarith) (sq_nonneg _)
    have e5 : (2 * t' - 1) ^ 2 = 5 := by nlinarith
    have e6 : 5 * ((1 + tau * lmax) * sqDist Z Y) = (2 * t' - 1) ^ 2 * ((1 + tau * lmax) * sqDist Z Y) := by rw [e5]
    rw [e6]
    generalize (1 + tau * lmax) = c at *
    nlinarith

/-- the next iterations -/
theorem next_inv (hZ : RowsInSimplex Z) {k : ℕ} (hk : 1 ≤ k) {st : FistaState n d} (hI : Inv L m Y tau lmax Z k st) :
    ∃ st', accelStep idx L m Y tau lmax (k + 1) st = .ok st' ∧ Inv L m Y tau lmax Z (k + 1) st' := by
  obtain ⟨X, P, t⟩ := st
  have i1 := hI.rows
  have i2 := hI.big
  have i3 := hI.gap
  simp only at i1 i2 i3
  have ht1 : 1 ≤ t := by
    have : (0 : ℝ) ≤ k := by positivity
    linarith
  obtain ⟨n1, n2⟩ := next_t (t := t) (by linarith)
  obtain ⟨t', ht'⟩ : ∃ t' : ℝ, t' = (1 + √(1 + 4 * t ^ 2)) / 2 := ⟨_, rfl⟩
  rw [← ht'] at n1 n2
  have hpos : 0 < t' := by linarith
  obtain ⟨V, hV⟩ : ∃ V : Matrix (Fin n) (Fin d) ℝ, V = X + ((t - 1) / t') • (X - P) := ⟨_, rfl⟩
  obtain ⟨X', h1, h2, h3⟩ := step_ineq hidx hd hL hp h0 hmax m Y ht V
  have hc : 0 < 1 + tau * lmax := by have := mul_nonneg ht.le h0; linarith
  refine ⟨⟨X', X, t'⟩, ?_, h2, ?_, ?_⟩
  · unfold accelStep
    have : k + 1 ≠ 1 := by omega
    simp only [this, if_false]
    rw [← ht', ← hV, h1]
  · push_cast; linarith
  · simp only
    have ha : 0 ≤ 1 - 1 / t' := by
      have : 1 / t' ≤ 1 := by rw [div_le_one hpos]; linarith
      linarith
    have hb : 0 ≤ 1 / t' := by positivity
    have hab : (1 - 1 / t') + 1 / t' = 1 := by ring
    have g1 := h3 _ (simplex_convex i1 hZ ha hb hab)
    have g2 := convex (m := m) (Y := Y) hL hp ht X Z ha hb hab
    have s1 : t' ^ 2 * sqDist ((1 - 1 / t') • X + (1 / t') • Z) X' = drift t' X' X Z := by
      unfold sqDist drift
      rw [Finset.mul_sum]
      refine Finset.sum_congr rfl fun v _ => ?_
      rw [Finset.mul_sum]
      refine Finset.sum_congr rfl fun j _ => ?_
      simp only [Matrix.add_apply, Matrix.smul_apply, smul_eq_mul]
      field_simp
      ring
    have s2 : t' ^ 2 * sqDist ((1 - 1 / t') • X + (1 / t') • Z) V = drift t X P Z := by
      unfold sqDist drift
      rw [Finset.mul_sum]
      refine Finset.sum_congr rfl fun v _ => ?_
      rw [Finset.mul_sum]
      refine Finset.sum_congr rfl fun j _ => ?_
      rw [hV]
      simp only [Matrix.add_apply, Matrix.sub_apply, Matrix.smul_apply, smul_eq_mul]
      field_simp
      ring
    rw [← s2] at i3
    rw [← s1]
    have g3 := mul_le_mul_of_nonneg_left (g1.trans (add_le_add_left g2 _)) (sq_nonneg t')
    have e1 : t' ^ 2 * ((1 - 1 / t') * classObjective L m Y tau X + 1 / t' * classObjective L m Y tau Z) =
        (t' ^ 2 - t') * classObjective L m Y tau X + t' * classObjective L m Y tau Z := by field_simp
    rw [mul_add, mul_add, e1, n1] at g3
    have e2 : t' * classObjective L m Y tau Z = (t' ^ 2 - t ^ 2) * classObjective L m Y tau Z := by rw [← n1]; ring
    rw [e2] at g3
    linarith

end

end PyGSP.Fista
