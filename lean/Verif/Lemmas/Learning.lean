import Verif.Model.Learning
import Verif.Spec.Learning
import Verif.Props.Utils

/-!
# Lemmas for the Tikhonov problems
-/

namespace PyGSP.Learning

open Matrix Spec

variable {n : ℕ} {L : Matrix (Fin n) (Fin n) ℝ} {m : Fin n → Bool}

theorem sum_split (m : Fin n → Bool) (f : Fin n → ℝ) :
    ∑ v, f v = (∑ u : Unlabelled m, f u.1) + ∑ l : { v : Fin n // m v = true }, f l.1 := by
  classical
  have h1 : ∑ u : Unlabelled m, f u.1 = ∑ v, if m v = false then f v else 0 := by
    rw [← Finset.sum_filter]
    exact (Finset.sum_subtype (Finset.univ.filter fun v => m v = false) (by simp) f).symm
  have h2 : ∑ l : { v : Fin n // m v = true }, f l.1 = ∑ v, if m v = true then f v else 0 := by
    rw [← Finset.sum_filter]
    exact (Finset.sum_subtype (Finset.univ.filter fun v => m v = true) (by simp) f).symm
  rw [h1, h2, ← Finset.sum_add_distrib]
  refine Finset.sum_congr rfl fun v _ => ?_
  cases m v <;> simp

theorem quad_add (hL : Lᵀ = L) (x w : Fin n → ℝ) :
    smoothness L (x + w) = smoothness L x + 2 * (w ⬝ᵥ (L *ᵥ x)) + smoothness L w := by
  unfold smoothness
  rw [Matrix.mulVec_add, add_dotProduct, dotProduct_add, dotProduct_add]
  have : x ⬝ᵥ (L *ᵥ w) = w ⬝ᵥ (L *ᵥ x) := by
    rw [Matrix.dotProduct_mulVec, ← Matrix.mulVec_transpose, hL, dotProduct_comm]
  rw [this]; ring

theorem quad_zero_linked {M : Matrix (Fin n) (Fin n) ℝ} (hM : NonnegW M) {w : Fin n → ℝ} (h : smoothness (combLap M) w = 0)
    {i j : Fin n} (hl : Linked M i j) : w i = w j := by
  have h0 : dirichlet M w = 0 := by rw [← combLap_quad]; exact h
  have key : ∀ i j, M i j ≠ 0 → w i = w j := by
    intro i j hij
    unfold dirichlet at h0
    have hnn : ∀ i ∈ Finset.univ, 0 ≤ ∑ j, M i j * (w i - w j) ^ 2 := fun i _ =>
      Finset.sum_nonneg fun j _ => mul_nonneg (hM i j) (sq_nonneg _)
    have h1 : ∑ i, ∑ j, M i j * (w i - w j) ^ 2 = 0 := by linarith
    have h2 := (Finset.sum_eq_zero_iff_of_nonneg hnn).1 h1 i (Finset.mem_univ i)
    have h3 := (Finset.sum_eq_zero_iff_of_nonneg fun j _ => mul_nonneg (hM i j) (sq_nonneg (w i - w j))).1 h2 j (Finset.mem_univ j)
    have h4 := (mul_eq_zero.1 h3).resolve_left hij
    have := pow_eq_zero_iff two_ne_zero |>.1 h4
    linarith
  induction hl with
  | refl => rfl
  | tail _ hbc ih =>
    rcases hbc with hbc | hbc
    · exact ih.trans (key _ _ hbc)
    · exact ih.trans (key _ _ hbc).symm

theorem combLap_psd {M : Matrix (Fin n) (Fin n) ℝ} (hM : NonnegW M) : PSD (combLap M) := by
  intro x
  rw [combLap_quad]
  unfold dirichlet
  have := Finset.sum_nonneg fun i (_ : i ∈ Finset.univ) => Finset.sum_nonneg fun j (_ : j ∈ Finset.univ) =>
    mul_nonneg (hM i j) (sq_nonneg (x i - x j))
  linarith

/-- the block of the unlabelled vertices -/
def uu (L : Matrix (Fin n) (Fin n) ℝ) (m : Fin n → Bool) : Matrix (Unlabelled m) (Unlabelled m) ℝ :=
  Matrix.of fun a b => L a.1 b.1

/-- extension by zero -/
def extend (m : Fin n → Bool) (z : Unlabelled m → ℝ) (v : Fin n) : ℝ := if h : m v = false then z ⟨v, h⟩ else 0

theorem uu_mulVec (z : Unlabelled m → ℝ) (a : Unlabelled m) : (uu L m *ᵥ z) a = (L *ᵥ extend m z) a.1 := by
  simp only [Matrix.mulVec, dotProduct]
  rw [sum_split m]
  have h2 : ∑ l : { v : Fin n // m v = true }, L a.1 l.1 * extend m z l.1 = 0 :=
    Finset.sum_eq_zero fun l _ => by simp [extend, l.2]
  rw [h2, add_zero]
  refine Finset.sum_congr rfl fun b _ => ?_
  simp [extend, uu, b.2]

/-- when every vertex is linked to a label, the system has a unique solution -/
theorem det_uu_ne_zero {M : Matrix (Fin n) (Fin n) ℝ} (hM : NonnegW M) (ha : Anchored M m) : (uu (combLap M) m).det ≠ 0 := by
  intro h
  obtain ⟨z, hz, hz0⟩ := Matrix.exists_mulVec_eq_zero_iff.2 h
  apply hz
  have hw : ∀ v, m v = false → (combLap M *ᵥ extend m z) v = 0 := fun v hv => by
    rw [← uu_mulVec z ⟨v, hv⟩, hz0]; rfl
  have hq : smoothness (combLap M) (extend m z) = 0 := by
    unfold smoothness dotProduct
    refine Finset.sum_eq_zero fun v _ => ?_
    by_cases hv : m v = false
    · rw [hw v hv, mul_zero]
    · simp [extend, hv]
  funext u
  obtain ⟨b, hb, hl⟩ := ha u.1
  have := quad_zero_linked hM hq hl
  simpa [extend, u.2, hb] using this

/-- a component without label makes the system singular -/
theorem det_uu_eq_zero {M : Matrix (Fin n) (Fin n) ℝ} (ha : ¬ Anchored M m) : (uu (combLap M) m).det = 0 := by
  classical
  unfold Anchored at ha
  push Not at ha
  obtain ⟨v0, hv0⟩ := ha
  refine Matrix.exists_mulVec_eq_zero_iff.1 ⟨fun u => if Linked M v0 u.1 then 1 else 0, ?_, ?_⟩
  · intro h
    have hm : m v0 = false := by
      cases hm : m v0 with
      | false => rfl
      | true => exact absurd .refl (hv0 v0 hm)
    have := congrFun h ⟨v0, hm⟩
    rw [if_pos (show Linked M v0 v0 from .refl)] at this
    simp at this
  · funext u
    rw [uu_mulVec, combLap_mulVec]
    refine Finset.sum_eq_zero fun j _ => ?_
    have he : ∀ v, extend m (fun u => if Linked M v0 u.1 then (1 : ℝ) else 0) v = if Linked M v0 v then 1 else 0 := by
      intro v
      unfold extend
      split
      · rfl
      · rename_i hv
        rw [if_neg (hv0 v (by simpa using hv))]
    rw [he, he]
    by_cases hw : M u.1 j ≠ 0 ∨ M j u.1 ≠ 0
    · have : Linked M v0 u.1 ↔ Linked M v0 j :=
        ⟨fun h => h.tail hw, fun h => h.tail hw.symm⟩
      simp [this]
    · push Not at hw
      simp [wsym, hw.1, hw.2]

/-- what `solveUnlabelled` returns, when it does -/
theorem solveUnlabelled_ok {y : Fin n → ℝ} {part : Unlabelled m → ℝ} (h : solveUnlabelled L m y = .ok part) :
    (∃ v, m v = false) ∧ ∀ v, m v = false → (L *ᵥ fill false m y part) v = 0 := by
  unfold solveUnlabelled at h
  split at h
  · cases h
  · rename_i hne
    push Not at hne
    obtain ⟨v1, hv1⟩ := hne
    simp only [spsolve] at h
    split at h
    · cases h
    · rename_i hd
      have hd' : (uu L m).det ≠ 0 := hd
      have hp := Except.ok.inj h
      refine ⟨⟨v1, by simpa using hv1⟩, fun v hv => ?_⟩
      have hsol : uu L m *ᵥ part = (Matrix.of fun (a : Unlabelled m) (b : { v : Fin n // m v = true }) => - L a.1 b.1) *ᵥ fun v => y v.1 := by
        rw [← hp, Matrix.mulVec_mulVec]
        show (uu L m * (uu L m)⁻¹) *ᵥ _ = _
        rw [Matrix.mul_nonsing_inv _ (isUnit_iff_ne_zero.2 hd'), Matrix.one_mulVec]
      have hv2 := congrFun hsol ⟨v, hv⟩
      simp only [Matrix.mulVec, dotProduct] at hv2 ⊢
      rw [sum_split m]
      have h1 : ∑ u : Unlabelled m, L v u.1 * fill false m y part u.1 = ∑ u : Unlabelled m, uu L m ⟨v, hv⟩ u * part u :=
        Finset.sum_congr rfl fun u _ => by simp [fill, u.2, store, uu]
      have h2 : ∑ l : { v : Fin n // m v = true }, L v l.1 * fill false m y part l.1 =
          - ∑ l : { v : Fin n // m v = true }, (Matrix.of fun (a : Unlabelled m) (b : { v : Fin n // m v = true }) => - L a.1 b.1) ⟨v, hv⟩ l * y l.1 := by
        rw [← Finset.sum_neg_distrib]
        exact Finset.sum_congr rfl fun l _ => by simp [fill, l.2]
      rw [h1, h2, hv2, add_neg_cancel]

/-- when does it return -/
theorem solveUnlabelled_comb {M : Matrix (Fin n) (Fin n) ℝ} (hM : NonnegW M) (ha : Anchored M m) (hu : ∃ v, m v = false)
    (y : Fin n → ℝ) : ∃ part, solveUnlabelled (combLap M) m y = .ok part := by
  unfold solveUnlabelled
  rw [if_neg (by obtain ⟨v, hv⟩ := hu; intro h; rw [h v] at hv; cases hv)]
  simp only [spsolve]
  exact ⟨_, if_neg (show ¬ (uu (combLap M) m).det = 0 from det_uu_ne_zero hM ha)⟩

theorem solveUnlabelled_singular {M : Matrix (Fin n) (Fin n) ℝ} (ha : ¬ Anchored M m) (y : Fin n → ℝ) :
    solveUnlabelled (combLap M) m y = .error .unmodelled := by
  unfold solveUnlabelled
  split
  · rfl
  · simp only [spsolve]
    exact if_pos (show (uu (combLap M) m).det = 0 from det_uu_eq_zero ha)

/-! ### the penalised problem -/

theorem penalised_mulVec (tau : ℝ) (x : Fin n → ℝ) (v : Fin n) :
    (penalised L m tau *ᵥ x) v = (if m v then x v else 0) + tau * (L *ᵥ x) v := by
  unfold penalised
  rw [Matrix.add_mulVec, Pi.add_apply, Matrix.mulVec_diagonal, Matrix.smul_mulVec]
  simp

theorem penalised_symm (hL : Lᵀ = L) (tau : ℝ) : (penalised L m tau)ᵀ = penalised L m tau := by
  unfold penalised
  rw [Matrix.transpose_add, Matrix.diagonal_transpose, Matrix.transpose_smul, hL]

theorem penalised_quad (tau : ℝ) (x : Fin n → ℝ) :
    x ⬝ᵥ (penalised L m tau *ᵥ x) = (∑ v, if m v then x v ^ 2 else 0) + tau * smoothness L x := by
  unfold smoothness
  simp only [dotProduct, penalised_mulVec, mul_add, Finset.sum_add_distrib, Finset.mul_sum]
  congr 1
  · exact Finset.sum_congr rfl fun v _ => by split <;> ring
  · exact Finset.sum_congr rfl fun v _ => by ring

theorem penalised_psd (hp : PSD L) {tau : ℝ} (ht : 0 < tau) : PSD (penalised L m tau) := by
  intro x
  rw [penalised_quad]
  have h1 : 0 ≤ ∑ v, if m v then x v ^ 2 else 0 := Finset.sum_nonneg fun v _ => by split <;> positivity
  have h2 : 0 ≤ tau * smoothness L x := mul_nonneg ht.le (hp x)
  linarith

/-- the objective around a solution of the normal equations -/
theorem objective_eq (hL : Lᵀ = L) {tau : ℝ} {y x : Fin n → ℝ} (hx : penalised L m tau *ᵥ x = mask m y) (z : Fin n → ℝ) :
    objective L m y tau z = objective L m y tau x + ((∑ v, if m v then (z v - x v) ^ 2 else 0) + tau * smoothness L (z - x)) := by
  have h1 : smoothness L z = smoothness L x + 2 * ((z - x) ⬝ᵥ (L *ᵥ x)) + smoothness L (z - x) := by
    have := quad_add hL x (z - x)
    rwa [add_sub_cancel] at this
  have h2 : tau * ((z - x) ⬝ᵥ (L *ᵥ x)) = ∑ v, if m v then (z v - x v) * (y v - x v) else 0 := by
    rw [dotProduct, Finset.mul_sum]
    refine Finset.sum_congr rfl fun v _ => ?_
    have := congrFun hx v
    rw [penalised_mulVec] at this
    unfold mask at this
    have h3 : tau * (L *ᵥ x) v = (if m v then y v else 0) - if m v then x v else 0 := by linarith
    calc tau * ((z - x) v * (L *ᵥ x) v) = (z v - x v) * (tau * (L *ᵥ x) v) := by simp only [Pi.sub_apply]; ring
      _ = _ := by rw [h3]; split <;> ring
  unfold objective
  rw [h1, mul_add, mul_add]
  have h4 : tau * (2 * ((z - x) ⬝ᵥ (L *ᵥ x))) = ∑ v, if m v then 2 * ((z v - x v) * (y v - x v)) else 0 := by
    rw [show tau * (2 * ((z - x) ⬝ᵥ (L *ᵥ x))) = 2 * (tau * ((z - x) ⬝ᵥ (L *ᵥ x))) by ring, h2, Finset.mul_sum]
    exact Finset.sum_congr rfl fun v _ => by split <;> ring
  rw [h4]
  have h5 : (∑ v, if m v then (z v - y v) ^ 2 else 0) + (∑ v, if m v then 2 * ((z v - x v) * (y v - x v)) else 0) =
      (∑ v, if m v then (x v - y v) ^ 2 else 0) + ∑ v, if m v then (z v - x v) ^ 2 else 0 := by
    rw [← Finset.sum_add_distrib, ← Finset.sum_add_distrib]
    exact Finset.sum_congr rfl fun v _ => by split <;> ring
  linarith

/-- the normal equations have a solution -/
theorem penalised_consistent (hL : Lᵀ = L) (hp : PSD L) {tau : ℝ} (ht : 0 < tau) (y : Fin n → ℝ) :
    ∃ x, penalised L m tau *ᵥ x = mask m y := by
  obtain ⟨pinv, hpi⟩ := exists_pinv n
  set A := penalised L m tau with hA
  have hAs : Aᵀ = A := penalised_symm hL tau
  have hP := hpi A hAs
  set P := pinv A
  have hPs := hP.symm hAs
  refine ⟨P *ᵥ mask m y, ?_⟩
  set b := mask m y with hb
  set z := b - A *ᵥ (P *ᵥ b) with hz
  have hAz : A *ᵥ z = 0 := by
    have h3 : A * (A * P) = A := by
      have h2 : P * A = A * P := by
        have := hP.ap
        rwa [Matrix.transpose_mul, hAs, hPs] at this
      rw [← h2, ← Matrix.mul_assoc, hP.apa]
    rw [hz, Matrix.mulVec_sub, Matrix.mulVec_mulVec, Matrix.mulVec_mulVec, Matrix.mul_assoc, h3, sub_self]
  -- z vanishes on the labels
  have hq : (∑ v, if m v then z v ^ 2 else 0) + tau * smoothness L z = 0 := by
    rw [← penalised_quad, ← hA, hAz, dotProduct_zero]
  have hq1 : ∑ v, (if m v then z v ^ 2 else 0) = 0 := by
    have h1 : 0 ≤ ∑ v, if m v then z v ^ 2 else 0 := Finset.sum_nonneg fun v _ => by split <;> positivity
    have h2 : 0 ≤ tau * smoothness L z := mul_nonneg ht.le (hp z)
    linarith
  have hq2 : ∀ v, m v = true → z v = 0 := fun v hv => by
    have := (Finset.sum_eq_zero_iff_of_nonneg fun v _ => by split <;> positivity).1 hq1 v (Finset.mem_univ v)
    rw [if_pos hv] at this
    exact pow_eq_zero_iff two_ne_zero |>.1 this
  have hzb : z ⬝ᵥ b = 0 := by
    unfold dotProduct
    refine Finset.sum_eq_zero fun v _ => ?_
    rw [hb]
    unfold mask
    split
    · rename_i h; rw [hq2 v h, zero_mul]
    · rw [mul_zero]
  have hzz : z ⬝ᵥ z = 0 := by
    conv_lhs => rw [hz, dotProduct_sub]
    rw [← hz, hzb, Matrix.dotProduct_mulVec, ← Matrix.mulVec_transpose, hAs, hAz, zero_dotProduct, sub_zero]
  have : z = 0 := by
    funext v
    unfold dotProduct at hzz
    have := (Finset.sum_eq_zero_iff_of_nonneg fun v _ => mul_self_nonneg (z v)).1 hzz v (Finset.mem_univ v)
    exact mul_self_eq_zero.1 this
  exact (sub_eq_zero.1 this).symm

/-- the solution of the normal equations is bounded by the labels -/
theorem penalised_le {M : Matrix (Fin n) (Fin n) ℝ} (hM : NonnegW M) (ha : Anchored M m) {tau : ℝ} (ht : 0 < tau)
    {x y : Fin n → ℝ} (hx : penalised (combLap M) m tau *ᵥ x = mask m y) (v : Fin n) : ∃ b, m b = true ∧ x v ≤ y b := by
  obtain ⟨t, -, htm⟩ := Finset.exists_max_image Finset.univ x ⟨v, Finset.mem_univ _⟩
  have heq : ∀ v, (if m v then x v else 0) + tau * (combLap M *ᵥ x) v = if m v then y v else 0 := fun v => by
    rw [← penalised_mulVec, hx]; rfl
  obtain ⟨b, hb, hmb⟩ := max_principle hM (fun v => m v = true) ha x (fun v hv => by
    have := heq v
    rw [if_neg hv, if_neg hv, zero_add] at this
    rcases mul_eq_zero.1 this with h | h
    · exact absurd h ht.ne'
    · exact h.le) t
  refine ⟨b, hb, (htm v (Finset.mem_univ v)).trans (hmb.trans ?_)⟩
  have h1 := heq b
  rw [if_pos hb, if_pos hb] at h1
  have h2 : 0 ≤ (combLap M *ᵥ x) b := by
    rw [combLap_mulVec]
    exact Finset.sum_nonneg fun j _ => mul_nonneg (wsym_nonneg hM b j)
      (sub_nonneg.2 ((htm j (Finset.mem_univ j)).trans hmb))
  have := mul_nonneg ht.le h2
  linarith

theorem penalised_ge {M : Matrix (Fin n) (Fin n) ℝ} (hM : NonnegW M) (ha : Anchored M m) {tau : ℝ} (ht : 0 < tau)
    {x y : Fin n → ℝ} (hx : penalised (combLap M) m tau *ᵥ x = mask m y) (v : Fin n) : ∃ b, m b = true ∧ y b ≤ x v := by
  obtain ⟨b, hb, h⟩ := penalised_le hM ha ht (x := -x) (y := -y) (by
    rw [Matrix.mulVec_neg, hx]
    funext v
    simp only [mask, Pi.neg_apply]
    split <;> simp) v
  exact ⟨b, hb, by simpa using h⟩

end PyGSP.Learning
