import Verif.Lemmas.Weyl
import Verif.Spec.Potential

/-!
# Sign domains of eigenvectors (Duval - Reiner, Davies - Gladwell - Leydold - Stadler) and Fiedler's theorem

`L` is any symmetric matrix whose entries off the diagonal are not positive.
-/

namespace PyGSP

open Matrix Spec

variable {n : ℕ}

/-- `j` can be reached from `i` along entries of `L` that are not zero, without leaving the vertices where `x` has the sign it has at `i`. -/
def Spec.SameDomain (E : Fin n → Fin n → Prop) (x : Fin n → ℝ) : Fin n → Fin n → Prop :=
  Relation.ReflTransGen fun a b => E a b ∧ 0 < x a * x b

/-- The vertices of `A` are linked to each other inside `A`. -/
def Spec.LinkedInside (E : Fin n → Fin n → Prop) (A : Set (Fin n)) : Prop :=
  ∀ i ∈ A, ∀ j ∈ A, Relation.ReflTransGen (fun a b => E a b ∧ a ∈ A ∧ b ∈ A) i j

namespace Nodal

variable {L : Matrix (Fin n) (Fin n) ℝ} {x : Fin n → ℝ} {t : ℝ}

/-- multiplying an eigenvector by a function that is constant on its sign domains does not raise its Rayleigh quotient -/
theorem quad_le (hs : Lᵀ = L) (hoff : ∀ i j, i ≠ j → L i j ≤ 0) (hx : L *ᵥ x = t • x) (c : Fin n → ℝ)
    (hc : ∀ i j, L i j ≠ 0 → 0 < x i * x j → c i = c j) :
    (fun i => c i * x i) ⬝ᵥ (L *ᵥ fun i => c i * x i) ≤ t * ∑ i, (c i * x i) ^ 2 := by
  have hsym : ∀ i j, L i j = L j i := fun i j => congrFun (congrFun hs.symm i) j
  have h1 : (fun i => c i * x i) ⬝ᵥ (L *ᵥ fun i => c i * x i) = ∑ i, ∑ j, L i j * x i * x j * (c i * c j) := by
    simp only [dotProduct, Matrix.mulVec, Finset.mul_sum]
    exact Finset.sum_congr rfl fun i _ => Finset.sum_congr rfl fun j _ => by ring
  have h2 : t * ∑ i, (c i * x i) ^ 2 = ∑ i, ∑ j, L i j * x i * x j * c i ^ 2 := by
    rw [Finset.mul_sum]
    refine Finset.sum_congr rfl fun i _ => ?_
    have := congrFun hx i
    simp only [Matrix.mulVec, dotProduct, Pi.smul_apply, smul_eq_mul] at this
    calc t * (c i * x i) ^ 2 = c i ^ 2 * x i * (t * x i) := by ring
      _ = ∑ j, L i j * x i * x j * c i ^ 2 := by
        rw [← this, Finset.mul_sum]
        exact Finset.sum_congr rfl fun j _ => by ring
  have h3 : t * ∑ i, (c i * x i) ^ 2 = ∑ i, ∑ j, L i j * x i * x j * c j ^ 2 := by
    rw [h2, Finset.sum_comm]
    refine Finset.sum_congr rfl fun i _ => Finset.sum_congr rfl fun j _ => ?_
    rw [hsym j i]
    ring
  have h4 : 2 * (t * ∑ i, (c i * x i) ^ 2) - 2 * ∑ i, ∑ j, L i j * x i * x j * (c i * c j) = ∑ i, ∑ j, L i j * x i * x j * (c i - c j) ^ 2 := by
    have : 2 * (t * ∑ i, (c i * x i) ^ 2) = ∑ i, ∑ j, L i j * x i * x j * c i ^ 2 + ∑ i, ∑ j, L i j * x i * x j * c j ^ 2 := by
      rw [← h2, ← h3]; ring
    rw [this, ← Finset.sum_add_distrib, Finset.mul_sum, ← Finset.sum_sub_distrib]
    refine Finset.sum_congr rfl fun i _ => ?_
    rw [← Finset.sum_add_distrib, Finset.mul_sum, ← Finset.sum_sub_distrib]
    exact Finset.sum_congr rfl fun j _ => by ring
  have h5 : 0 ≤ ∑ i, ∑ j, L i j * x i * x j * (c i - c j) ^ 2 := by
    refine Finset.sum_nonneg fun i _ => Finset.sum_nonneg fun j _ => ?_
    by_cases hij : i = j
    · subst hij; simp
    by_cases h0 : L i j = 0
    · simp [h0]
    by_cases hp : 0 < x i * x j
    · rw [hc i j h0 hp]; simp
    · have : 0 ≤ L i j * (x i * x j) := mul_nonneg_of_nonpos_of_nonpos (hoff i j hij) (not_lt.1 hp)
      rw [mul_assoc]
      rw [mul_assoc] at *
      exact (mul_nonneg this (sq_nonneg (c i - c j))).trans_eq (by ring)
  rw [h1]
  linarith

theorem sameDomain_symm {E : Fin n → Fin n → Prop} (hE : ∀ i j, E i j → E j i) {i j : Fin n} (h : SameDomain E x i j) : SameDomain E x j i := by
  unfold SameDomain at *
  induction h with
  | refl => exact .refl
  | tail _ h2 ih => exact .head ⟨hE _ _ h2.1, by rw [mul_comm]; exact h2.2⟩ ih

/-- **The nodal domain theorem.** -/
theorem card_le {e : Fin n → ℝ} {U : Matrix (Fin n) (Fin n) ℝ} (hp : IsEigenPairs L e U) (hs : Lᵀ = L) (hoff : ∀ i j, i ≠ j → L i j ≤ 0)
    {E : Fin n → Fin n → Prop} (hE : ∀ i j, E i j → E j i) (hLE : ∀ i j, i ≠ j → L i j ≠ 0 → E i j)
    (hx : L *ᵥ x = t • x) (T : Finset (Fin n)) (hT0 : ∀ v ∈ T, x v ≠ 0) (hT : ∀ v ∈ T, ∀ w ∈ T, v ≠ w → ¬ SameDomain E x v w) :
    T.card ≤ (Finset.univ.filter fun j => e j ≤ t).card := by
  classical
  by_contra hlt
  push Not at hlt
  -- a combination of the pieces that is orthogonal to the modes up to `t`
  obtain ⟨a, ha0, ha⟩ : ∃ a : T → ℝ, a ≠ 0 ∧ ∀ j, e j ≤ t → (Uᵀ *ᵥ fun i => (∑ v : T, if SameDomain E x v.1 i then a v else 0) * x i) j = 0 := by
    let f : (T → ℝ) →ₗ[ℝ] ((Finset.univ.filter fun j => e j ≤ t) → ℝ) :=
      { toFun := fun a j => (Uᵀ *ᵥ fun i => (∑ v : T, if SameDomain E x v.1 i then a v else 0) * x i) j.1
        map_add' := by
          intro a b
          funext j
          simp only [Pi.add_apply]
          rw [← Pi.add_apply (Uᵀ *ᵥ _) (Uᵀ *ᵥ _), ← Matrix.mulVec_add]
          congr 2
          funext i
          simp only [Pi.add_apply]
          rw [← add_mul, ← Finset.sum_add_distrib]
          congr 1
          exact Finset.sum_congr rfl fun v _ => by split <;> simp
        map_smul' := by
          intro c a
          funext j
          simp only [Pi.smul_apply, RingHom.id_apply]
          rw [← Pi.smul_apply c (Uᵀ *ᵥ _), ← Matrix.mulVec_smul]
          congr 2
          funext i
          simp only [Pi.smul_apply, smul_eq_mul]
          rw [← mul_assoc, Finset.mul_sum]
          congr 1
          exact Finset.sum_congr rfl fun v _ => by split <;> simp }
    have := LinearMap.ker_ne_bot_of_finrank_lt (f := f) (by rw [Module.finrank_fintype_fun_eq_card, Module.finrank_fintype_fun_eq_card, Fintype.card_coe, Fintype.card_coe]; exact hlt)
    obtain ⟨a, h1, h2⟩ := (Submodule.ne_bot_iff _).1 this
    exact ⟨a, h2, fun j hj => congrFun (LinearMap.mem_ker.1 h1) ⟨j, by simpa using hj⟩⟩
  set c : Fin n → ℝ := fun i => ∑ v : T, if SameDomain E x v.1 i then a v else 0 with hc
  -- it is constant on the domains
  have hconst : ∀ i j, L i j ≠ 0 → 0 < x i * x j → c i = c j := by
    intro i j h0 hpos
    by_cases hij : i = j
    · rw [hij]
    rw [hc]
    refine Finset.sum_congr rfl fun v _ => ?_
    have : SameDomain E x v.1 i ↔ SameDomain E x v.1 j :=
      ⟨fun h => h.tail ⟨hLE i j hij h0, hpos⟩, fun h => h.tail ⟨hE _ _ (hLE i j hij h0), by rw [mul_comm]; exact hpos⟩⟩
    simp only [this]
  -- at the representatives
  have hrep : ∀ v : T, c v.1 = a v := by
    intro v
    show ∑ w : T, (if SameDomain E x w.1 v.1 then a w else 0) = a v
    rw [Finset.sum_eq_single v]
    · exact if_pos Relation.ReflTransGen.refl
    · intro w _ hw
      exact if_neg (hT w.1 w.2 v.1 v.2 fun h => hw (Subtype.ext h))
    · intro h; exact absurd (Finset.mem_univ v) h
  have h1 := quad_le hs hoff hx c hconst
  have hU : U * Uᵀ = 1 := mul_eq_one_comm.1 hp.orthonormal
  set f : Fin n → ℝ := fun i => c i * x i with hf
  have hfU : U *ᵥ (Uᵀ *ᵥ f) = f := by rw [Matrix.mulVec_mulVec, hU, Matrix.one_mulVec]
  have h2 := Weyl.quad_basis hp (Uᵀ *ᵥ f)
  have h3 := Weyl.norm_basis hp (Uᵀ *ᵥ f)
  rw [hfU] at h2 h3
  have h4 : ∑ i, (c i * x i) ^ 2 = f ⬝ᵥ f := by
    simp only [dotProduct, hf]
    exact Finset.sum_congr rfl fun i _ => by ring
  rw [h4, h2, h3, Finset.mul_sum, ← sub_nonneg, ← Finset.sum_sub_distrib] at h1
  have h5 : ∀ j ∈ Finset.univ, t * (Uᵀ *ᵥ f) j ^ 2 - e j * (Uᵀ *ᵥ f) j ^ 2 ≤ 0 := by
    intro j _
    by_cases hj : e j ≤ t
    · rw [ha j hj]; simp
    · push Not at hj
      have := mul_nonneg (sub_nonneg.2 hj.le) (sq_nonneg ((Uᵀ *ᵥ f) j))
      linarith
  have h6 := (Finset.sum_eq_zero_iff_of_nonpos h5).1 (le_antisymm (Finset.sum_nonpos h5) h1)
  have h7 : Uᵀ *ᵥ f = 0 := by
    funext j
    by_cases hj : e j ≤ t
    · exact ha j hj
    · push Not at hj
      have := h6 j (Finset.mem_univ j)
      rw [← sub_mul] at this
      have := (mul_eq_zero.1 this).resolve_left (by linarith)
      exact pow_eq_zero_iff (two_ne_zero) |>.1 this
  have h8 : f = 0 := by rw [← hfU, h7, Matrix.mulVec_zero]
  obtain ⟨v, hv⟩ := Function.ne_iff.1 ha0
  have := congrFun h8 v.1
  simp only [hf, Pi.zero_apply, hrep] at this
  exact (mul_ne_zero hv (hT0 v.1 v.2)) this

/-- **Fiedler.** `y` such that `L y ≤ λ y` where `y ≥ 0`, `λ` the second eigenvalue: if `{y ≥ 0}` is the union of two non-empty pieces with no entry of `L` between them, one of the pieces
has no entry to the outside at all. -/
theorem fiedler {e : Fin n → ℝ} {U : Matrix (Fin n) (Fin n) ℝ} (hp : IsEigenPairs L e U) (hm : Monotone e) (hs : Lᵀ = L)
    (hoff : ∀ i j, i ≠ j → L i j ≤ 0) (h1n : 1 < n) {y : Fin n → ℝ} (hy : ∀ i, 0 ≤ y i → (L *ᵥ y) i ≤ e ⟨1, h1n⟩ * y i) {A B : Set (Fin n)}
    (hAB : ∀ i, 0 ≤ y i ↔ i ∈ A ∨ i ∈ B) (hd : ∀ i, i ∈ A → i ∉ B) (hno : ∀ i ∈ A, ∀ j ∈ B, L i j = 0) :
    (∀ i ∈ A, ∀ j ∉ A, L i j = 0) ∨ ∀ i ∈ B, ∀ j ∉ B, L i j = 0 := by
  classical
  have hsym : ∀ i j, L i j = L j i := fun i j => congrFun (congrFun hs.symm i) j
  set l := e ⟨1, h1n⟩ with hl
  have hU : U * Uᵀ = 1 := mul_eq_one_comm.1 hp.orthonormal
  -- the two pieces of `y`
  let p (C : Set (Fin n)) : Fin n → ℝ := fun i => if i ∈ C then y i else 0
  have hpC : ∀ C : Set (Fin n), ∀ i, p C i = if i ∈ C then y i else 0 := fun _ _ => rfl
  obtain ⟨a, b, hab, h0⟩ : ∃ a b : ℝ, (a ≠ 0 ∨ b ≠ 0) ∧ a * (Uᵀ *ᵥ p A) ⟨0, by omega⟩ + b * (Uᵀ *ᵥ p B) ⟨0, by omega⟩ = 0 := by
    by_cases hA : (Uᵀ *ᵥ p A) ⟨0, by omega⟩ = 0
    · exact ⟨1, 0, by simp, by rw [hA]; ring⟩
    · exact ⟨-(Uᵀ *ᵥ p B) ⟨0, by omega⟩, (Uᵀ *ᵥ p A) ⟨0, by omega⟩, .inr hA, by ring⟩
  -- `L p ≤ λ p` inside each piece, up to the outside
  have hin : ∀ C D : Set (Fin n), (∀ i, 0 ≤ y i ↔ i ∈ C ∨ i ∈ D) → (∀ i ∈ C, ∀ j ∈ D, L i j = 0) → ∀ i ∈ C,
      (L *ᵥ p C) i + ∑ j, (if 0 ≤ y j then 0 else L i j * y j) = (L *ᵥ y) i := by
    intro C D h1 h2 i hi
    simp only [Matrix.mulVec, dotProduct]
    rw [← Finset.sum_add_distrib]
    refine Finset.sum_congr rfl fun j _ => ?_
    rw [hpC]
    by_cases hj : j ∈ C
    · rw [if_pos hj, if_pos ((h1 j).2 (.inl hj))]; ring
    · rw [if_neg hj]
      by_cases hy0 : 0 ≤ y j
      · rw [if_pos hy0, h2 i hi j (((h1 j).1 hy0).resolve_left hj)]; ring
      · rw [if_neg hy0]; ring
  have hout : ∀ i j, 0 ≤ y i → 0 ≤ (if 0 ≤ y j then 0 else L i j * y j) := by
    intro i j hi
    split
    · exact le_rfl
    · rename_i hj
      have hij : i ≠ j := fun h => hj (h ▸ hi)
      exact mul_nonneg_of_nonpos_of_nonpos (hoff i j hij) (not_le.1 hj).le
  have hle : ∀ C D : Set (Fin n), (∀ i, 0 ≤ y i ↔ i ∈ C ∨ i ∈ D) → (∀ i ∈ C, ∀ j ∈ D, L i j = 0) → ∀ i ∈ C, (L *ᵥ p C) i ≤ l * y i := by
    intro C D h1 h2 i hi
    have hyi := (h1 i).2 (.inl hi)
    have := hin C D h1 h2 i hi
    have h3 := hy i hyi
    have h4 : 0 ≤ ∑ j, (if 0 ≤ y j then 0 else L i j * y j) := Finset.sum_nonneg fun j _ => hout i j hyi
    linarith
  -- equality means that there is no entry to the outside
  have hfin : ∀ C D : Set (Fin n), (∀ i, 0 ≤ y i ↔ i ∈ C ∨ i ∈ D) → (∀ i ∈ C, ∀ j ∈ D, L i j = 0) → (∀ i ∈ C, (L *ᵥ p C) i = l * y i) →
      ∀ i ∈ C, ∀ j ∉ C, L i j = 0 := by
    intro C D h1 h2 h3 i hi j hj
    by_cases hjy : 0 ≤ y j
    · exact h2 i hi j (((h1 j).1 hjy).resolve_left hj)
    · have hyi := (h1 i).2 (.inl hi)
      have h4 := hin C D h1 h2 i hi
      rw [h3 i hi] at h4
      have h5 := hy i hyi
      have h6 : ∑ j, (if 0 ≤ y j then 0 else L i j * y j) = 0 := le_antisymm (by linarith) (Finset.sum_nonneg fun j _ => hout i j hyi)
      have h7 := (Finset.sum_eq_zero_iff_of_nonneg fun j _ => hout i j hyi).1 h6 j (Finset.mem_univ j)
      rw [if_neg hjy] at h7
      exact (mul_eq_zero.1 h7).resolve_right (not_le.1 hjy).ne
  have hAB' : ∀ i, 0 ≤ y i ↔ i ∈ B ∨ i ∈ A := fun i => (hAB i).trans or_comm
  have hno' : ∀ i ∈ B, ∀ j ∈ A, L i j = 0 := fun i hi j hj => by rw [hsym]; exact hno j hj i hi
  -- the combination orthogonal to the first mode
  set f : Fin n → ℝ := a • p A + b • p B with hf
  have hfA : ∀ i ∈ A, f i = a * y i := by
    intro i hi
    simp only [hf, Pi.add_apply, Pi.smul_apply, smul_eq_mul, hpC]
    rw [if_pos hi, if_neg (hd i hi)]; ring
  have hfB : ∀ i ∈ B, f i = b * y i := by
    intro i hi
    simp only [hf, Pi.add_apply, Pi.smul_apply, smul_eq_mul, hpC]
    rw [if_pos hi, if_neg (fun h => hd i h hi)]; ring
  have hfN : ∀ i, i ∉ A → i ∉ B → f i = 0 := by
    intro i h1 h2
    simp only [hf, Pi.add_apply, Pi.smul_apply, smul_eq_mul, hpC]
    rw [if_neg h1, if_neg h2]; ring
  have hcross : ∀ C D : Set (Fin n), (∀ i ∈ C, ∀ j ∈ D, L i j = 0) → ∀ i ∈ C, (L *ᵥ p D) i = 0 := by
    intro C D h i hi
    simp only [Matrix.mulVec, dotProduct]
    refine Finset.sum_eq_zero fun j _ => ?_
    rw [hpC]
    by_cases hj : j ∈ D
    · rw [h i hi j hj]; ring
    · rw [if_neg hj]; ring
  have hLf : ∀ i, (L *ᵥ f) i = a * (L *ᵥ p A) i + b * (L *ᵥ p B) i := by
    intro i
    rw [hf, Matrix.mulVec_add, Matrix.mulVec_smul, Matrix.mulVec_smul]
    rfl
  have hquad : f ⬝ᵥ (L *ᵥ f) ≤ l * (f ⬝ᵥ f) := by
    simp only [dotProduct, Finset.mul_sum]
    refine Finset.sum_le_sum fun i _ => ?_
    by_cases hA : i ∈ A
    · rw [hLf, hcross A B hno i hA, hfA i hA]
      have := mul_le_mul_of_nonneg_left (hle A B hAB hno i hA) (mul_nonneg (sq_nonneg a) ((hAB i).2 (.inl hA)))
      linarith
    · by_cases hB : i ∈ B
      · rw [hLf, hcross B A hno' i hB, hfB i hB]
        have := mul_le_mul_of_nonneg_left (hle B A hAB' hno' i hB) (mul_nonneg (sq_nonneg b) ((hAB i).2 (.inr hB)))
        linarith
      · rw [hfN i hA hB]; simp
  -- hence an eigenvector
  have hfU : U *ᵥ (Uᵀ *ᵥ f) = f := by rw [Matrix.mulVec_mulVec, hU, Matrix.one_mulVec]
  have hy0 : (Uᵀ *ᵥ f) ⟨0, by omega⟩ = 0 := by
    rw [hf, Matrix.mulVec_add, Matrix.mulVec_smul, Matrix.mulVec_smul]
    exact h0
  have h2 := Weyl.quad_basis hp (Uᵀ *ᵥ f)
  have h3 := Weyl.norm_basis hp (Uᵀ *ᵥ f)
  rw [hfU] at h2 h3
  rw [h2, h3, Finset.mul_sum, ← sub_nonneg, ← Finset.sum_sub_distrib] at hquad
  have h5 : ∀ j ∈ Finset.univ, l * (Uᵀ *ᵥ f) j ^ 2 - e j * (Uᵀ *ᵥ f) j ^ 2 ≤ 0 := by
    intro j _
    by_cases hj : j.1 = 0
    · rw [show j = ⟨0, by omega⟩ from Fin.ext hj, hy0]; simp
    · have hlj : l ≤ e j := hm (Fin.mk_le_of_le_val (by omega))
      have := mul_nonneg (sub_nonneg.2 hlj) (sq_nonneg ((Uᵀ *ᵥ f) j))
      linarith
  have h6 := (Finset.sum_eq_zero_iff_of_nonpos h5).1 (le_antisymm (Finset.sum_nonpos h5) hquad)
  have h7 : L *ᵥ f = l • f := by
    have e1 : L *ᵥ f = U *ᵥ fun j => e j * (Uᵀ *ᵥ f) j := by
      conv_lhs => rw [← hfU]
      rw [Matrix.mulVec_mulVec, hp.eig, ← Matrix.mulVec_mulVec]
      congr 1
      funext j
      rw [Matrix.mulVec_diagonal]
    have e2 : (fun j => e j * (Uᵀ *ᵥ f) j) = l • (Uᵀ *ᵥ f) := by
      funext j
      have := h6 j (Finset.mem_univ j)
      rw [← sub_mul] at this
      rcases mul_eq_zero.1 this with h | h
      · rw [Pi.smul_apply, smul_eq_mul, sub_eq_zero.1 h]
      · have := pow_eq_zero_iff (two_ne_zero) |>.1 h
        rw [Pi.smul_apply, this]; simp
    rw [e1, e2, Matrix.mulVec_smul, hfU]
  rcases hab with ha | hb
  · refine .inl (hfin A B hAB hno fun i hi => ?_)
    have := congrFun h7 i
    rw [hLf, hcross A B hno i hi, Pi.smul_apply, hfA i hi] at this
    have : a * ((L *ᵥ p A) i - l * y i) = 0 := by simp only [smul_eq_mul] at this; linarith
    have := (mul_eq_zero.1 this).resolve_left ha
    linarith
  · refine .inr (hfin B A hAB' hno' fun i hi => ?_)
    have := congrFun h7 i
    rw [hLf, hcross B A hno' i hi, Pi.smul_apply, hfB i hi] at this
    have : b * ((L *ᵥ p B) i - l * y i) = 0 := by simp only [smul_eq_mul] at this; linarith
    have := (mul_eq_zero.1 this).resolve_left hb
    linarith

end Nodal

end PyGSP
