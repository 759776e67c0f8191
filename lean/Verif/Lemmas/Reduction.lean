import Verif.Model.Reduction
import Verif.Lemmas.Learning

/-!
# Lemmas on Schur complements
-/

namespace PyGSP

open Matrix Spec Learning Reduction

variable {n k : ℕ} {L : Matrix (Fin n) (Fin n) ℝ} {ind : Fin k → Fin n}

theorem kept_iff (ind : Fin k → Fin n) (v : Fin n) : kept ind v = true ↔ ∃ a, ind a = v := by simp [kept]

theorem kept_ind (ind : Fin k → Fin n) (a : Fin k) : kept ind (ind a) = true := (kept_iff _ _).2 ⟨a, rfl⟩

theorem kept_false_iff (ind : Fin k → Fin n) (v : Fin n) : kept ind v = false ↔ ∀ a, ind a ≠ v := by simp [kept]

/-- `K` is what the elimination of the vertices outside `ind` leaves of `L`. -/
structure IsSchur (L : Matrix (Fin n) (Fin n) ℝ) (ind : Fin k → Fin n) (K : Matrix (Fin k) (Fin k) ℝ) : Prop where
  restrict : ∀ v : Fin n → ℝ, (∀ u, kept ind u = false → (L *ᵥ v) u = 0) → ∀ a, (K *ᵥ fun a => v (ind a)) a = (L *ᵥ v) (ind a)
  extend : ∀ x : Fin k → ℝ, ∃ v : Fin n → ℝ, (∀ a, v (ind a) = x a) ∧ ∀ u, kept ind u = false → (L *ᵥ v) u = 0

theorem sum_kept (hi : Function.Injective ind) (f : Fin n → ℝ) :
    ∑ v, f v = ∑ a, f (ind a) + ∑ u : Unlabelled (kept ind), f u.1 := by
  rw [sum_split (kept ind), add_comm]
  congr 1
  let e : Fin k ≃ { v : Fin n // kept ind v = true } := Equiv.ofBijective (fun a => ⟨ind a, kept_ind ind a⟩)
    ⟨fun a b h => hi (congrArg Subtype.val h), fun v => by
      obtain ⟨a, ha⟩ := (kept_iff ind v.1).1 v.2
      exact ⟨a, Subtype.ext ha⟩⟩
  exact (Equiv.sum_comp e fun l => f l.1).symm

/-- the Schur complement of the block of the eliminated vertices -/
noncomputable def schur (L : Matrix (Fin n) (Fin n) ℝ) (ind : Fin k → Fin n) : Matrix (Fin k) (Fin k) ℝ :=
  (Matrix.of fun a b => L (ind a) (ind b)) -
    (Matrix.of fun a (u : Unlabelled (kept ind)) => L (ind a) u.1) *
      ((uu L (kept ind))⁻¹ * (Matrix.of fun (u : Unlabelled (kept ind)) b => L u.1 (ind b)))

theorem isSchur_schur (hi : Function.Injective ind) (hdet : (uu L (kept ind)).det ≠ 0) : IsSchur L ind (schur L ind) := by
  have hu : IsUnit (uu L (kept ind)).det := isUnit_iff_ne_zero.2 hdet
  set A := uu L (kept ind) with hA
  set B : Matrix (Unlabelled (kept ind)) (Fin k) ℝ := Matrix.of fun u b => L u.1 (ind b) with hB
  set C : Matrix (Fin k) (Unlabelled (kept ind)) ℝ := Matrix.of fun a u => L (ind a) u.1 with hC
  have hrow : ∀ (v : Fin n → ℝ) (w : Fin n), (L *ᵥ v) w =
      ∑ a, L w (ind a) * v (ind a) + ∑ u : Unlabelled (kept ind), L w u.1 * v u.1 := fun v w =>
    sum_kept hi fun y => L w y * v y
  have hK : ∀ x : Fin k → ℝ, schur L ind *ᵥ x = (Matrix.of fun a b => L (ind a) (ind b)) *ᵥ x - C *ᵥ (A⁻¹ *ᵥ (B *ᵥ x)) := by
    intro x
    unfold schur
    rw [Matrix.sub_mulVec, Matrix.mulVec_mulVec, Matrix.mulVec_mulVec, Matrix.mul_assoc]
  refine ⟨fun v hv a => ?_, fun x => ?_⟩
  · have h1 : A *ᵥ (fun u : Unlabelled (kept ind) => v u.1) = -(B *ᵥ fun a => v (ind a)) := by
      funext u
      have := hv u.1 u.2
      rw [hrow] at this
      have h2 : (A *ᵥ fun u : Unlabelled (kept ind) => v u.1) u = ∑ y : Unlabelled (kept ind), L u.1 y.1 * v y.1 := rfl
      have h3 : (B *ᵥ fun a => v (ind a)) u = ∑ a, L u.1 (ind a) * v (ind a) := rfl
      rw [h2, Pi.neg_apply, h3]
      linarith
    have h2 : (fun u : Unlabelled (kept ind) => v u.1) = -(A⁻¹ *ᵥ (B *ᵥ fun a => v (ind a))) := by
      have := congrArg (fun z => A⁻¹ *ᵥ z) h1
      simp only [Matrix.mulVec_mulVec, Matrix.nonsing_inv_mul A hu, Matrix.one_mulVec, Matrix.mulVec_neg] at this
      rw [this, Matrix.mulVec_mulVec]
    rw [hK, hrow, Pi.sub_apply]
    have h3 : (A⁻¹ *ᵥ (B *ᵥ fun a => v (ind a))) = -(fun u : Unlabelled (kept ind) => v u.1) := by rw [h2, neg_neg]
    rw [h3, Matrix.mulVec_neg, Pi.neg_apply, sub_neg_eq_add]
    rfl
  · refine ⟨fun w => if h : kept ind w = false then (-(A⁻¹ *ᵥ (B *ᵥ x))) ⟨w, h⟩
      else x ((kept_iff ind w).1 (by simpa using h)).choose, fun a => ?_, fun u hu' => ?_⟩
    · have h : ¬ (kept ind (ind a) = false) := by rw [kept_ind]; simp
      beta_reduce
      rw [dif_neg h]
      congr 1
      exact hi ((kept_iff ind (ind a)).1 (by simpa using h)).choose_spec
    · rw [hrow]
      have e1 : ∀ a, (if h : kept ind (ind a) = false then (-(A⁻¹ *ᵥ (B *ᵥ x))) ⟨ind a, h⟩
          else x ((kept_iff ind (ind a)).1 (by simpa using h)).choose) = x a := by
        intro a
        have h : ¬ (kept ind (ind a) = false) := by rw [kept_ind]; simp
        rw [dif_neg h]
        congr 1
        exact hi ((kept_iff ind (ind a)).1 (by simpa using h)).choose_spec
      simp only [e1]
      have e2 : ∀ y : Unlabelled (kept ind), (if h : kept ind y.1 = false then (-(A⁻¹ *ᵥ (B *ᵥ x))) ⟨y.1, h⟩
          else x ((kept_iff ind y.1).1 (by simpa using h)).choose) = (-(A⁻¹ *ᵥ (B *ᵥ x))) y := fun y => dif_pos y.2
      simp only [e2]
      have h2 : A *ᵥ (-(A⁻¹ *ᵥ (B *ᵥ x))) = -(B *ᵥ x) := by
        rw [Matrix.mulVec_neg, Matrix.mulVec_mulVec, Matrix.mul_nonsing_inv A hu, Matrix.one_mulVec]
      have h3 := congrFun h2 ⟨u, hu'⟩
      have h4 : (A *ᵥ (-(A⁻¹ *ᵥ (B *ᵥ x)))) ⟨u, hu'⟩ = ∑ y : Unlabelled (kept ind), L u y.1 * (-(A⁻¹ *ᵥ (B *ᵥ x))) y := rfl
      have h5 : (B *ᵥ x) ⟨u, hu'⟩ = ∑ a, L u (ind a) * x a := rfl
      rw [h4, Pi.neg_apply, h5] at h3
      linarith

/-- the bilinear form of the result is that of the extensions -/
theorem IsSchur.bilin {K : Matrix (Fin k) (Fin k) ℝ} (h : IsSchur L ind K) (hi : Function.Injective ind) (w v : Fin n → ℝ)
    (hv : ∀ u, kept ind u = false → (L *ᵥ v) u = 0) :
    (fun a => w (ind a)) ⬝ᵥ (K *ᵥ fun a => v (ind a)) = w ⬝ᵥ (L *ᵥ v) := by
  unfold dotProduct
  rw [sum_kept hi]
  have h0 : ∑ u : Unlabelled (kept ind), w u.1 * (L *ᵥ v) u.1 = 0 := Finset.sum_eq_zero fun u _ => by rw [hv u.1 u.2, mul_zero]
  rw [h0, add_zero]
  exact Finset.sum_congr rfl fun a _ => by rw [h.restrict v hv]

theorem IsSchur.symm {K : Matrix (Fin k) (Fin k) ℝ} (h : IsSchur L ind K) (hi : Function.Injective ind) (hL : Lᵀ = L) : Kᵀ = K := by
  have key : ∀ x y : Fin k → ℝ, y ⬝ᵥ (K *ᵥ x) = x ⬝ᵥ (K *ᵥ y) := by
    intro x y
    obtain ⟨v, hv, hv0⟩ := h.extend x
    obtain ⟨w, hw, hw0⟩ := h.extend y
    have ex : x = fun a => v (ind a) := funext fun a => (hv a).symm
    have ey : y = fun a => w (ind a) := funext fun a => (hw a).symm
    rw [ex, ey, h.bilin hi w v hv0, h.bilin hi v w hw0]
    rw [Matrix.dotProduct_mulVec, ← Matrix.mulVec_transpose, hL, dotProduct_comm]
  ext a b
  have := key (Pi.single a 1) (Pi.single b 1)
  simpa [Matrix.mulVec_single_one, single_one_dotProduct, Matrix.col_apply] using this

/-- uniqueness -/
theorem IsSchur.unique {K K' : Matrix (Fin k) (Fin k) ℝ} (h : IsSchur L ind K) (h' : IsSchur L ind K') : K = K' := by
  have key : ∀ x : Fin k → ℝ, K *ᵥ x = K' *ᵥ x := by
    intro x
    obtain ⟨v, hv, hv0⟩ := h.extend x
    have ex : x = fun a => v (ind a) := funext fun a => (hv a).symm
    funext a
    rw [ex, h.restrict v hv0, h'.restrict v hv0]
  ext a b
  have := congrFun (key (Pi.single b 1)) a
  simpa [Matrix.mulVec_single_one, Matrix.col_apply] using this

/-- minimisation of the energy -/
theorem IsSchur.energy {K : Matrix (Fin k) (Fin k) ℝ} (h : IsSchur L ind K) (hi : Function.Injective ind) (hL : Lᵀ = L)
    (hp : PSD L) (x : Fin k → ℝ) :
    (∃ v : Fin n → ℝ, (∀ a, v (ind a) = x a) ∧ smoothness L v = smoothness K x) ∧
      ∀ w : Fin n → ℝ, (∀ a, w (ind a) = x a) → smoothness K x ≤ smoothness L w := by
  obtain ⟨v, hv, hv0⟩ := h.extend x
  have ex : x = fun a => v (ind a) := funext fun a => (hv a).symm
  have hb : smoothness L v = smoothness K x := by
    unfold smoothness
    rw [ex, h.bilin hi v v hv0]
  refine ⟨⟨v, hv, hb⟩, fun w hw => ?_⟩
  have e : w = v + (w - v) := by abel
  rw [e, quad_add hL, ← hb]
  have h0 : (w - v) ⬝ᵥ (L *ᵥ v) = 0 := by
    unfold dotProduct
    refine Finset.sum_eq_zero fun y _ => ?_
    by_cases hy : kept ind y = false
    · rw [hv0 y hy, mul_zero]
    · obtain ⟨a, ha⟩ := (kept_iff ind y).1 (by simpa using hy)
      rw [← ha, Pi.sub_apply, hw, hv, sub_self, zero_mul]
  have := hp (w - v)
  change 0 ≤ smoothness L (w - v) at this
  rw [h0]
  linarith

/-- what `kron_reduction` returns -/
theorem kronMatrix_ok (hi : Function.Injective ind) (hL : Lᵀ = L) (hk : 0 < k) (he : ∃ v, kept ind v = false)
    (hdet : (uu L (kept ind)).det ≠ 0) : kronMatrix L ind = .ok (schur L ind) := by
  have hs := isSchur_schur hi hdet
  have hsym := hs.symm hi hL
  have hne : ¬ (k = 0 ∨ ∀ v, kept ind v = true) := by
    rintro (h | h)
    · omega
    · obtain ⟨v, hv⟩ := he
      rw [h v] at hv
      cases hv
  unfold kronMatrix
  rw [if_neg hne]
  refine (if_neg (show ¬ (uu L (kept ind)).det = 0 from hdet)).trans ?_
  change (if _ then Except.ok (Matrix.of fun a b => (schur L ind a b + schur L ind b a) / 2) else Except.ok (schur L ind)) = _
  have e : (Matrix.of fun a b => (schur L ind a b + schur L ind b a) / 2) = schur L ind := by
    ext a b
    have : schur L ind b a = schur L ind a b := by conv_lhs => rw [← hsym, Matrix.transpose_apply]
    simp only [Matrix.of_apply, this]
    ring
  rw [e, ite_self]

theorem kronMatrix_singular (hdet : (uu L (kept ind)).det = 0) : kronMatrix L ind = .error .unmodelled := by
  unfold kronMatrix
  split
  · rfl
  · exact if_pos hdet

/-- positive definite matrices -/
theorem det_uu_posdef {m : Fin n → Bool} (hp : ∀ x : Fin n → ℝ, x ≠ 0 → 0 < x ⬝ᵥ (L *ᵥ x)) : (uu L m).det ≠ 0 := by
  intro h
  obtain ⟨z, hz, hz0⟩ := Matrix.exists_mulVec_eq_zero_iff.2 h
  have hne : extend m z ≠ 0 := by
    intro h0
    apply hz
    funext u
    have := congrFun h0 u.1
    simpa [extend, u.2] using this
  have h1 := hp _ hne
  have h2 : extend m z ⬝ᵥ (L *ᵥ extend m z) = 0 := by
    unfold dotProduct
    refine Finset.sum_eq_zero fun v _ => ?_
    by_cases hv : m v = false
    · rw [← uu_mulVec z ⟨v, hv⟩, hz0, Pi.zero_apply, mul_zero]
    · simp [extend, hv]
  linarith

end PyGSP
