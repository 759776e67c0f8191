import Verif.Model.Lanczos
import Mathlib.LinearAlgebra.Matrix.ToLin
import Mathlib.Algebra.Polynomial.AlgebraMap
import Mathlib.LinearAlgebra.Matrix.Rank

/-! # The invariant of the Lanczos iteration -/

namespace PyGSP

open Matrix

variable {n : ℕ}

theorem norm2_sq (x : Fin n → ℝ) : norm2 x * norm2 x = x ⬝ᵥ x :=
  Real.mul_self_sqrt (by simpa [dotProduct] using Finset.sum_nonneg fun i _ => mul_self_nonneg (x i))

theorem norm2_nonneg (x : Fin n → ℝ) : 0 ≤ norm2 x := Real.sqrt_nonneg _

theorem norm2_pos {x : Fin n → ℝ} (h : x ≠ 0) : 0 < norm2 x := by
  refine lt_of_le_of_ne (norm2_nonneg x) fun h0 => h ?_
  have := norm2_sq x
  rw [← h0, mul_zero] at this
  exact dotProduct_self_eq_zero.1 this.symm

theorem dot_symm {A : Matrix (Fin n) (Fin n) ℝ} (hA : Aᵀ = A) (u v : Fin n → ℝ) : u ⬝ᵥ (A *ᵥ v) = (A *ᵥ u) ⬝ᵥ v := by
  rw [dotProduct_mulVec, ← mulVec_transpose, hA]

/-- The invariant at the beginning of iteration `k` (the columns `0, …, k - 1` are assigned). -/
structure LInv (A : Matrix (Fin n) (Fin n) ℝ) (x : Fin n → ℝ) (k : ℕ) (st : LanczosState n) : Prop where
  pos : 1 ≤ k
  ortho : ∀ i < k, ∀ j < k, st.V i ⬝ᵥ st.V j = if i = j then 1 else 0
  vzero : ∀ j, k ≤ j → st.V j = 0
  first : st.V 0 = (1 / norm2 x) • x
  q : st.q = st.V (k - 1)
  hzero : ∀ i j, k ≤ j → st.H i j = 0
  far : ∀ i j, (j + 1 < i ∨ i + 1 < j) → st.H i j = 0
  symm : ∀ i j, i < k → j < k → st.H i j = st.H j i
  proj : ∀ i j, i < k → j < k → st.H i j = st.V i ⬝ᵥ (A *ᵥ st.V j)
  col : ∀ j, j + 1 < k → A *ᵥ st.V j = ∑ i ∈ Finset.range k, st.H i j • st.V i
  last : A *ᵥ st.V (k - 1) = ∑ i ∈ Finset.range k, st.H i (k - 1) • st.V i + st.r
  res : ∀ j < k, st.V j ⬝ᵥ st.r = 0
  norm : st.H k (k - 1) = norm2 st.r

theorem LInv.init {A : Matrix (Fin n) (Fin n) ℝ} (x : Fin n → ℝ) (hx : x ≠ 0) : LInv A x 1 (lanczosInit A x) := by
  have hp := norm2_pos hx
  set q := (1 / norm2 x) • x with hq
  have hqq : q ⬝ᵥ q = 1 := by
    rw [hq, smul_dotProduct, dotProduct_smul, smul_eq_mul, smul_eq_mul, ← norm2_sq]
    field_simp
  set r := A *ᵥ q - (q ⬝ᵥ (A *ᵥ q)) • q with hr
  have e : lanczosInit A x = LanczosState.mk (fun k => if k = 0 then q else 0)
      (setEntry (setEntry (fun _ _ => 0) 0 0 (q ⬝ᵥ (A *ᵥ q))) 1 0 (norm2 r)) q r := by
    unfold lanczosInit
    simp only [setEntry, and_self, if_true, ← hq]
    rfl
  rw [e]
  refine ⟨le_rfl, ?_, ?_, ?_, ?_, ?_, ?_, ?_, ?_, ?_, ?_, ?_, ?_⟩
  · intro i hi j hj
    have h1 : i = 0 := by omega
    have h2 : j = 0 := by omega
    subst h1 h2
    simpa using hqq
  · intro j hj
    simp only
    rw [if_neg (by omega)]
  · change (if (0 : ℕ) = 0 then q else 0) = _
    rw [if_pos rfl]
  · simp
  · intro i j hj
    simp only [setEntry]
    rw [if_neg (by omega), if_neg (by omega)]
  · intro i j hij
    simp only [setEntry]
    rw [if_neg (by omega), if_neg (by omega)]
  · intro i j hi hj
    have h1 : i = 0 := by omega
    have h2 : j = 0 := by omega
    rw [h1, h2]
  · intro i j hi hj
    have h1 : i = 0 := by omega
    have h2 : j = 0 := by omega
    subst h1 h2
    simp [setEntry]
  · intro j hj; omega
  · simp [setEntry, hr]
  · intro j hj
    have h2 : j = 0 := by omega
    subst h2
    simp only [if_true, hr, dotProduct_sub, dotProduct_smul, hqq]
    simp
  · simp [setEntry]

theorem LInv.step {A : Matrix (Fin n) (Fin n) ℝ} (hA : Aᵀ = A) {x : Fin n → ℝ} {k order : ℕ} (hk : k < order) {st : LanczosState n}
    (h : LInv A x k st) (hb : st.H k (k - 1) ≠ 0) : LInv A x (k + 1) (lanczosStep A order k st) := by
  obtain ⟨k, rfl⟩ : ∃ j, k = j + 1 := ⟨k - 1, by have := h.pos; omega⟩
  simp only [Nat.add_sub_cancel] at hb
  set β := st.H (k + 1) k with hβ
  have hβr : β = norm2 st.r := by have := h.norm; simpa using this
  set q := (1 / β) • st.r with hq
  have hqq : q ⬝ᵥ q = 1 := by
    rw [hq, smul_dotProduct, dotProduct_smul, smul_eq_mul, smul_eq_mul, ← norm2_sq, ← hβr]
    field_simp
  have hqV : ∀ j < k + 1, st.V j ⬝ᵥ q = 0 := fun j hj => by
    rw [hq, dotProduct_smul, h.res j hj, smul_zero]
  have hrq : st.r = β • q := by rw [hq, smul_smul, mul_one_div_cancel hb, one_smul]
  -- products with `A q`
  have hAq : ∀ j < k + 1, st.V j ⬝ᵥ (A *ᵥ q) = if j = k then β else 0 := by
    intro j hj
    rw [dot_symm hA]
    by_cases hjk : j = k
    · subst hjk
      rw [if_pos rfl]
      have := h.last
      simp only [Nat.add_sub_cancel] at this
      rw [this, add_dotProduct, sum_dotProduct, Finset.sum_eq_zero, zero_add, hrq, smul_dotProduct, hqq, smul_eq_mul, mul_one]
      intro i hi
      rw [smul_dotProduct, hqV i (Finset.mem_range.1 hi), smul_zero]
    · rw [if_neg hjk, h.col j (by omega), sum_dotProduct, Finset.sum_eq_zero]
      intro i hi
      rw [smul_dotProduct, hqV i (Finset.mem_range.1 hi), smul_zero]
  set r1 := A *ᵥ q - β • st.q with hr1
  set α := q ⬝ᵥ r1 with hα
  set r2 := r1 - α • q with hr2
  set V : ℕ → Fin n → ℝ := fun j => if j = k + 1 then q else st.V j with hV
  have hVk : V (k + 1) = q := by simp [hV]
  have hVj : ∀ j < k + 1, V j = st.V j := fun j hj => by simp only [hV]; rw [if_neg (by omega)]
  have hsq : st.q = st.V k := by have := h.q; simpa using this
  have hres : ∀ j < k + 2, V j ⬝ᵥ r2 = 0 := by
    intro j hj
    by_cases hjk : j = k + 1
    · subst hjk
      rw [hVk, hr2, dotProduct_sub, dotProduct_smul, hqq, smul_eq_mul, mul_one, sub_self]
    · rw [hVj j (by omega), hr2, dotProduct_sub, dotProduct_smul, hqV j (by omega), smul_zero, sub_zero, hr1, dotProduct_sub,
        dotProduct_smul, hAq j (by omega), hsq, h.ortho j (by omega) k (by omega)]
      split_ifs <;> simp
  have hr3 : r2 - ∑ j ∈ Finset.range order, (V j ⬝ᵥ r2) • V j = r2 := by
    rw [Finset.sum_eq_zero, sub_zero]
    intro j _
    by_cases hj : j < k + 2
    · rw [hres j hj, zero_smul]
    · rw [show V j = 0 by simp only [hV]; rw [if_neg (by omega)]; exact h.vzero j (by omega), smul_zero]
  set H := setEntry (setEntry (setEntry st.H k (k + 1) β) (k + 1) (k + 1) α) (k + 1 + 1) (k + 1) (norm2 r2) with hH
  have e : lanczosStep A order (k + 1) st = { V := V, H := H, q := q, r := r2 } := by
    unfold lanczosStep
    simp only [Nat.add_sub_cancel]
    have s1 : setEntry st.H k (k + 1) (st.H (k + 1) k) k (k + 1) = β := by simp [setEntry, hβ]
    simp only [s1]
    rw [← hq]
    simp only [← hr1, ← hα]
    have s2 : setEntry (setEntry st.H k (k + 1) (st.H (k + 1) k)) (k + 1) (k + 1) α (k + 1) (k + 1) = α := by simp [setEntry]
    simp only [s2]
    rw [← hr2]
    rw [show (∑ j ∈ Finset.range order, ((if j = k + 1 then q else st.V j) ⬝ᵥ r2) • (if j = k + 1 then q else st.V j)) =
      ∑ j ∈ Finset.range order, (V j ⬝ᵥ r2) • V j from rfl, hr3]
  have H1 : H k (k + 1) = β := by
    simp only [hH, setEntry]
    rw [if_neg (by omega), if_neg (by omega), if_pos (by simp)]
  have H2 : H (k + 1) (k + 1) = α := by simp [hH, setEntry]
  have H3 : H (k + 2) (k + 1) = norm2 r2 := by simp [hH, setEntry]
  have Hold : ∀ i j, j < k + 1 → H i j = st.H i j := by
    intro i j hj
    simp only [hH, setEntry]
    rw [if_neg (by omega), if_neg (by omega), if_neg (by omega)]
  have Hnew : ∀ i, i < k → H i (k + 1) = 0 := by
    intro i hi
    simp only [hH, setEntry]
    rw [if_neg (by omega), if_neg (by omega), if_neg (by omega)]
    exact h.hzero _ _ le_rfl
  have ortho : ∀ i < k + 1 + 1, ∀ j < k + 1 + 1, V i ⬝ᵥ V j = if i = j then 1 else 0 := by
    intro i hi j hj
    by_cases h1 : i = k + 1 <;> by_cases h2 : j = k + 1
    · subst h1 h2; rw [hVk, hqq, if_pos rfl]
    · subst h1; rw [hVk, hVj j (by omega), dotProduct_comm, hqV j (by omega), if_neg (by omega)]
    · subst h2; rw [hVk, hVj i (by omega), hqV i (by omega), if_neg (by omega)]
    · rw [hVj i (by omega), hVj j (by omega), h.ortho i (by omega) j (by omega)]
  have hprojnew : ∀ i < k + 1 + 1, H i (k + 1) = V i ⬝ᵥ (A *ᵥ q) := by
    intro i hi
    by_cases h1 : i = k + 1
    · subst h1
      rw [H2, hVk, hα, hr1, dotProduct_sub, dotProduct_smul, hsq, dotProduct_comm q (st.V k), hqV k (by omega), smul_zero,
        sub_zero]
    · rw [hVj i (by omega), hAq i (by omega)]
      by_cases h2 : i = k
      · subst h2; rw [if_pos rfl, H1]
      · rw [if_neg h2, Hnew i (by omega)]
  have hproj : ∀ i j, i < k + 1 + 1 → j < k + 1 + 1 → H i j = V i ⬝ᵥ (A *ᵥ V j) := by
    intro i j hi hj
    by_cases h2 : j = k + 1
    · subst h2; rw [hVk]; exact hprojnew i hi
    · rw [Hold i j (by omega)]
      by_cases h1 : i = k + 1
      · subst h1
        rw [hVk, hVj j (by omega), dot_symm hA, dotProduct_comm, hAq j (by omega)]
        by_cases h3 : j = k
        · subst h3; rw [if_pos rfl]
        · rw [if_neg h3]
          exact h.far _ _ (.inl (by omega))
      · rw [hVj i (by omega), hVj j (by omega), h.proj i j (by omega) (by omega)]
  have hsymm : ∀ i j, i < k + 1 + 1 → j < k + 1 + 1 → H i j = H j i := by
    intro i j hi hj
    rw [hproj i j hi hj, hproj j i hj hi, dot_symm hA, dotProduct_comm]
  have hsum : ∀ (j : ℕ) (y : Fin n → ℝ), H (k + 1) j = 0 →
      ∑ i ∈ Finset.range (k + 1 + 1), H i j • V i = ∑ i ∈ Finset.range (k + 1), H i j • st.V i := by
    intro j y hz
    rw [Finset.sum_range_succ, hz, zero_smul, add_zero]
    exact Finset.sum_congr rfl fun i hi => by rw [hVj i (Finset.mem_range.1 hi)]
  rw [e]
  refine ⟨by omega, ortho, ?_, ?_, ?_, ?_, ?_, hsymm, hproj, ?_, ?_, hres, ?_⟩
  · intro j hj
    simp only [hV]
    rw [if_neg (by omega)]
    exact h.vzero j (by omega)
  · change V 0 = _
    rw [hVj 0 (by omega)]; exact h.first
  · simp only [Nat.add_sub_cancel]; exact hVk.symm
  · intro i j hj
    simp only [hH, setEntry]
    rw [if_neg (by omega), if_neg (by omega), if_neg (by omega)]
    exact h.hzero _ _ (by omega)
  · intro i j hij
    simp only [hH, setEntry]
    rw [if_neg (by omega), if_neg (by omega), if_neg (by omega)]
    exact h.far i j hij
  · intro j hj
    change A *ᵥ V j = ∑ i ∈ Finset.range (k + 1 + 1), H i j • V i
    rw [Finset.sum_range_succ, Hold _ j (by omega), hVj j (by omega), hVk]
    have hs2 : ∑ i ∈ Finset.range (k + 1), H i j • V i = ∑ i ∈ Finset.range (k + 1), st.H i j • st.V i :=
      Finset.sum_congr rfl fun i hi => by rw [hVj i (Finset.mem_range.1 hi), Hold i j (by omega)]
    rw [hs2]
    by_cases hjk : j = k
    · subst hjk
      have := h.last
      simp only [Nat.add_sub_cancel] at this
      rw [this, hrq]
    · rw [h.far (k + 1) j (.inl (by omega)), zero_smul, add_zero, h.col j (by omega)]
  · simp only [Nat.add_sub_cancel]
    rw [hVk, Finset.sum_range_succ, Finset.sum_range_succ, H1, H2, hVk, hVj k (by omega), Finset.sum_eq_zero, zero_add, hr2, hr1, hsq]
    · abel
    · intro i hi
      rw [Hnew i (Finset.mem_range.1 hi), zero_smul]
  · simp only [Nat.add_sub_cancel]; exact H3

/-- what the loop returns -/
theorem lanczosLoop_cases {A : Matrix (Fin n) (Fin n) ℝ} (hA : Aᵀ = A) {x : Fin n → ℝ} {order : ℕ} : ∀ (t k : ℕ) (st : LanczosState n),
    k + t = order → LInv A x k st →
    (∃ st', LInv A x order st' ∧ lanczosLoop A order t k st = ⟨order, order, fun i j => st'.V j i, fun i j => st'.H i j⟩) ∨
    ∃ k' st', k' < order ∧ LInv A x k' st' ∧ st'.H k' (k' - 1) ≤ spacing1 ∧
      lanczosLoop A order t k st = ⟨k' - 1, k', fun i j => st'.V j i, fun i j => st'.H i j⟩ := by
  intro t
  induction t with
  | zero =>
    intro k st hk h
    left
    have : k = order := by omega
    subst this
    exact ⟨st, h, rfl⟩
  | succ t ih =>
    intro k st hk h
    unfold lanczosLoop
    by_cases hz : |st.H k (k - 1)| ≤ spacing1
    · right
      rw [if_pos hz]
      exact ⟨k, st, by omega, h, (le_abs_self _).trans hz, rfl⟩
    · rw [if_neg hz]
      refine ih (k + 1) _ (by omega) (h.step hA (by omega) fun h0 => hz ?_)
      rw [h0, abs_zero]
      unfold spacing1
      positivity

end PyGSP
