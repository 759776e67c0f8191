import Verif.Lemmas.Clusters
import Verif.Lemmas.Fourier

/-!
# The first eigenvectors of a symmetric matrix
-/

namespace PyGSP

open Matrix Spec

namespace Spec

/-- What `eigsh(L, k, which='SM')` is documented to return: `k` eigenvalues of smallest magnitude.  No eigenvector that is orthogonal to the returned ones has an
eigenvalue of smaller magnitude than theirs. -/
def ExactSM {n : ℕ} (S : Solvers n) : Prop :=
  ∀ k t (L : Matrix (Fin n) (Fin n) ℝ), (∀ i j, L i j = L j i) → 0 < k → k < n → ∀ r, S.eigshSM k t L = some r →
    ∀ (x : Fin n → ℝ) (l : ℝ), x ≠ 0 → L *ᵥ x = l • x → (∀ j, ∑ i, r.2 i j * x i = 0) → ∀ j, |r.1 j| ≤ |l|

end Spec

namespace Partial

variable {n k m : ℕ} {L : Matrix (Fin n) (Fin n) ℝ} {e : Fin n → ℝ} {U : Matrix (Fin n) (Fin n) ℝ} {f : Fin k → ℝ} {V : Matrix (Fin n) (Fin k) ℝ}

theorem quad (h : IsEigenPairs L f V) (y : Fin k → ℝ) : (V *ᵥ y) ⬝ᵥ (L *ᵥ (V *ᵥ y)) = ∑ i, f i * y i ^ 2 := by
  rw [Matrix.mulVec_mulVec, h.eig, ← Matrix.mulVec_mulVec, Matrix.dotProduct_mulVec, Matrix.vecMul_mulVec, h.orthonormal, Matrix.vecMul_one]
  simp only [dotProduct, Matrix.mulVec_diagonal]
  exact Finset.sum_congr rfl fun i _ => by ring

theorem norm (h : Vᵀ * V = 1) (y : Fin k → ℝ) : (V *ᵥ y) ⬝ᵥ (V *ᵥ y) = ∑ i, y i ^ 2 := by
  rw [Matrix.dotProduct_mulVec, Matrix.vecMul_mulVec, h, Matrix.vecMul_one]
  simp only [dotProduct]
  exact Finset.sum_congr rfl fun i _ => by ring

/-- a combination of the first `j + 1` columns of `A` that is orthogonal to the first `j` columns of `B` -/
theorem exists_comb (A : Matrix (Fin n) (Fin k) ℝ) (B : Matrix (Fin n) (Fin m) ℝ) (j : ℕ) (hj : j < k) (hm : j ≤ m) :
    ∃ y : Fin k → ℝ, 0 < ∑ i, y i ^ 2 ∧ (∀ i : Fin k, j < i.1 → y i = 0) ∧ ∀ a : Fin m, a.1 < j → (Bᵀ *ᵥ (A *ᵥ y)) a = 0 := by
  obtain ⟨c, hc, h0⟩ := Weyl.exists_kernel j (Matrix.of fun (a : Fin j) (b : Fin (j + 1)) => (Bᵀ * A) ⟨a, by omega⟩ ⟨b, by omega⟩)
  set y : Fin k → ℝ := fun i => if h : i.1 < j + 1 then c ⟨i, h⟩ else 0 with hy
  have y1 : ∀ b : Fin (j + 1), y ⟨b, by omega⟩ = c b := fun b => dif_pos b.2
  have y0 : ∀ i : Fin k, ¬ i.1 < j + 1 → y i = 0 := fun i hi => dif_neg hi
  have hsum : ∀ φ : Fin k → ℝ, ∑ i, φ i * y i = ∑ b : Fin (j + 1), φ ⟨b, by omega⟩ * c b := by
    intro φ
    have hinj : Function.Injective fun b : Fin (j + 1) => (⟨b, by omega⟩ : Fin k) := fun a b hab => Fin.ext (by simpa using hab)
    have : ∑ i ∈ Finset.univ.image (fun b : Fin (j + 1) => (⟨b, by omega⟩ : Fin k)), φ i * y i = ∑ b : Fin (j + 1), φ ⟨b, by omega⟩ * c b := by
      rw [Finset.sum_image (fun a _ b _ hab => hinj hab)]
      exact Finset.sum_congr rfl fun b _ => by rw [y1]
    rw [← this]
    symm
    refine Finset.sum_subset (Finset.subset_univ _) fun i _ hi => ?_
    have : ¬ i.1 < j + 1 := fun hlt => hi (Finset.mem_image.2 ⟨⟨i, hlt⟩, Finset.mem_univ _, rfl⟩)
    rw [y0 i this, mul_zero]
  refine ⟨y, ?_, fun i hi => y0 i (by omega), fun a ha => ?_⟩
  · obtain ⟨b, hb⟩ := Function.ne_iff.1 hc
    refine lt_of_lt_of_le ?_ (Finset.single_le_sum (f := fun i => y i ^ 2) (fun i _ => sq_nonneg _) (Finset.mem_univ (⟨b, by omega⟩ : Fin k)))
    simp only [y1]
    exact sq_pos_of_ne_zero hb
  · have h1 := congrFun h0 ⟨a, ha⟩
    rw [Matrix.mulVec_mulVec]
    change ∑ j, (Bᵀ * A) a j * y j = 0
    rw [hsum]
    exact h1

theorem symm_dot (hL : ∀ i j, L i j = L j i) (x y : Fin n → ℝ) : x ⬝ᵥ (L *ᵥ y) = y ⬝ᵥ (L *ᵥ x) := by
  have : Lᵀ = L := by ext i j; exact hL j i
  rw [Matrix.dotProduct_mulVec, ← Matrix.mulVec_transpose, this, dotProduct_comm]

theorem ortho_of (V : Matrix (Fin n) (Fin k) ℝ) (x : Fin n → ℝ) : (∀ j, ∑ i, V i j * x i = 0) ↔ Vᵀ *ᵥ x = 0 := by
  constructor
  · intro h; funext j; exact h j
  · intro h j; exact congrFun h j

/-- for a positive semi-definite matrix: the energies of the signals that are orthogonal to the selected eigenvectors -/
theorem outside (hL : ∀ i j, L i j = L j i) (hpsd : PSD L) (hV : IsEigenPairs L f V)
    (hout : ∀ (x : Fin n → ℝ) (l : ℝ), x ≠ 0 → L *ᵥ x = l • x → (∀ j, ∑ i, V i j * x i = 0) → ∀ j, |f j| ≤ |l|)
    (j : Fin k) {x : Fin n → ℝ} (hx : Vᵀ *ᵥ x = 0) : f j * (x ⬝ᵥ x) ≤ x ⬝ᵥ (L *ᵥ x) := by
  have hf : ∀ i, 0 ≤ f i := fun i => eig_nonneg hpsd (hV.isEigenvalue i)
  have hVL : Vᵀ * L = Matrix.diagonal f * Vᵀ := by
    have := congrArg Matrix.transpose hV.eig
    rw [Matrix.transpose_mul, Matrix.transpose_mul, Matrix.diagonal_transpose] at this
    rwa [show Lᵀ = L from by ext a b; exact hL b a] at this
  set c := f j with hc
  set L' : Matrix (Fin n) (Fin n) ℝ := L + c • (V * Vᵀ) with hL'
  have hsym : ∀ a b, L' a b = L' b a := fun a b => by
    have : (V * Vᵀ) a b = (V * Vᵀ) b a := by
      rw [Matrix.mul_apply, Matrix.mul_apply]
      exact Finset.sum_congr rfl fun i _ => by rw [Matrix.transpose_apply, Matrix.transpose_apply]; ring
    simp only [hL', Matrix.add_apply, Matrix.smul_apply, hL a b, this]
  obtain ⟨e', U', hE, -⟩ := exists_eigh L' hsym
  have key : ∀ i, c ≤ e' i := fun i => by
    set u : Fin n → ℝ := fun a => U' a i with hu
    have hune : u ≠ 0 := hE.col_ne_zero i
    have heig : L' *ᵥ u = e' i • u := hE.mulVec i
    set q := Vᵀ *ᵥ u with hq
    -- the part inside the span
    have hq1 : ∀ a, (f a + c) * q a = e' i * q a := fun a => by
      have h1 := congrFun (congrArg (fun z => Vᵀ *ᵥ z) heig) a
      simp only [hL', Matrix.add_mulVec, Matrix.smul_mulVec, Matrix.mulVec_add, Matrix.mulVec_smul, Matrix.mulVec_mulVec, hVL, ← Matrix.mul_assoc] at h1
      rw [hV.orthonormal, Matrix.one_mul, ← Matrix.mulVec_mulVec, ← hq] at h1
      simp only [Pi.add_apply, Pi.smul_apply, Matrix.mulVec_diagonal, smul_eq_mul] at h1
      linarith
    by_cases hz : q = 0
    · -- an eigenvector of `L` outside
      have h1 : L *ᵥ u = e' i • u := by
        rw [← heig, hL', Matrix.add_mulVec, Matrix.smul_mulVec, ← Matrix.mulVec_mulVec, ← hq, hz, Matrix.mulVec_zero, smul_zero, add_zero]
      have h2 := hout u (e' i) hune h1 ((ortho_of V u).2 (hq ▸ hz)) j
      have h3 : 0 ≤ e' i := eig_nonneg hpsd ⟨u, hune, h1⟩
      rw [abs_of_nonneg (hf j), abs_of_nonneg h3] at h2
      exact h2
    · obtain ⟨a, ha⟩ := Function.ne_iff.1 hz
      have := mul_right_cancel₀ ha (hq1 a)
      have := hf a
      linarith
  have h1 := Weyl.quad_basis hE (U'ᵀ *ᵥ x)
  have h2 := Weyl.norm_basis hE (U'ᵀ *ᵥ x)
  have hUU : U' *ᵥ (U'ᵀ *ᵥ x) = x := by rw [Matrix.mulVec_mulVec, mul_eq_one_comm.1 hE.orthonormal, Matrix.one_mulVec]
  rw [hUU] at h1 h2
  have h3 : x ⬝ᵥ (L' *ᵥ x) = x ⬝ᵥ (L *ᵥ x) := by
    rw [hL', Matrix.add_mulVec, Matrix.smul_mulVec, ← Matrix.mulVec_mulVec, hx, Matrix.mulVec_zero, smul_zero, add_zero]
  rw [← h3, h1, h2, Finset.mul_sum]
  exact Finset.sum_le_sum fun i _ => mul_le_mul_of_nonneg_right (key i) (sq_nonneg _)

/-- **the selected eigenvalues are the first ones** -/
theorem first (hE : IsEigenPairs L e U) (he : Monotone e) (hV : IsEigenPairs L f V) (hf : Monotone f) (hL : ∀ i j, L i j = L j i) (hkn : k ≤ n)
    (hout : ∀ j {x : Fin n → ℝ}, Vᵀ *ᵥ x = 0 → f j * (x ⬝ᵥ x) ≤ x ⬝ᵥ (L *ᵥ x)) (j : Fin k) : f j = e (j.castLE hkn) := by
  apply le_antisymm
  · obtain ⟨y, hy, h0, h1⟩ := exists_comb U V j.1 (by omega) (by omega)
    set x := U *ᵥ y with hx
    have hxx : x ⬝ᵥ x = ∑ i, y i ^ 2 := Weyl.norm_basis hE y
    have hxL : x ⬝ᵥ (L *ᵥ x) ≤ e (j.castLE hkn) * ∑ i, y i ^ 2 := by
      rw [hx, Weyl.quad_basis hE, Finset.mul_sum]
      refine Finset.sum_le_sum fun i _ => ?_
      by_cases hi : j.1 < i.1
      · rw [h0 i hi]; simp
      · exact mul_le_mul_of_nonneg_right (he (by simp only [Fin.le_def, Fin.val_castLE]; omega)) (sq_nonneg _)
    set q := Vᵀ *ᵥ x with hq
    set z := x - V *ᵥ q with hz
    have hVz : Vᵀ *ᵥ z = 0 := by
      rw [hz, Matrix.mulVec_sub, Matrix.mulVec_mulVec q Vᵀ V, hV.orthonormal, Matrix.one_mulVec, ← hq, sub_self]
    have hzV : ∀ r, (V *ᵥ r) ⬝ᵥ z = 0 := fun r => by
      rw [dotProduct_comm, Matrix.dotProduct_mulVec, ← Matrix.mulVec_transpose, hVz, zero_dotProduct]
    have hxz : x = V *ᵥ q + z := by rw [hz]; abel
    have e1 : x ⬝ᵥ x = ∑ i, q i ^ 2 + z ⬝ᵥ z := by
      conv_lhs => rw [hxz]
      rw [add_dotProduct, dotProduct_add, dotProduct_add, norm hV.orthonormal, hzV, dotProduct_comm z, hzV]
      ring
    have hcross : z ⬝ᵥ (L *ᵥ (V *ᵥ q)) = 0 := by
      rw [Matrix.mulVec_mulVec, hV.eig, ← Matrix.mulVec_mulVec, dotProduct_comm, hzV]
    have e2 : x ⬝ᵥ (L *ᵥ x) = ∑ i, f i * q i ^ 2 + z ⬝ᵥ (L *ᵥ z) := by
      conv_lhs => rw [hxz]
      rw [Matrix.mulVec_add, add_dotProduct, dotProduct_add, dotProduct_add, quad hV, symm_dot hL (V *ᵥ q) z, hcross]
      ring
    have h3 : f j * ∑ i, q i ^ 2 ≤ ∑ i, f i * q i ^ 2 := by
      rw [Finset.mul_sum]
      refine Finset.sum_le_sum fun i _ => ?_
      by_cases hi : i.1 < j.1
      · rw [h1 i hi]; simp
      · exact mul_le_mul_of_nonneg_right (hf (by simp only [Fin.le_def]; omega)) (sq_nonneg _)
    have h4 := hout j hVz
    refine le_of_mul_le_mul_right ?_ hy
    calc f j * ∑ i, y i ^ 2 = f j * (x ⬝ᵥ x) := by rw [hxx]
      _ ≤ x ⬝ᵥ (L *ᵥ x) := by rw [e1, e2, mul_add]; linarith
      _ ≤ _ := hxL
  · obtain ⟨y, hy, h0, h1⟩ := exists_comb V U j.1 j.2 (by omega)
    set x := V *ᵥ y with hx
    have hxx : x ⬝ᵥ x = ∑ i, y i ^ 2 := norm hV.orthonormal y
    have hxL : x ⬝ᵥ (L *ᵥ x) ≤ f j * ∑ i, y i ^ 2 := by
      rw [hx, quad hV, Finset.mul_sum]
      refine Finset.sum_le_sum fun i _ => ?_
      by_cases hi : j.1 < i.1
      · rw [h0 i hi]; simp
      · exact mul_le_mul_of_nonneg_right (hf (by simp only [Fin.le_def]; omega)) (sq_nonneg _)
    have h2 := Weyl.quad_basis hE (Uᵀ *ᵥ x)
    have h3 := Weyl.norm_basis hE (Uᵀ *ᵥ x)
    have hUU : U *ᵥ (Uᵀ *ᵥ x) = x := by rw [Matrix.mulVec_mulVec, mul_eq_one_comm.1 hE.orthonormal, Matrix.one_mulVec]
    rw [hUU] at h2 h3
    refine le_of_mul_le_mul_right ?_ hy
    refine le_trans ?_ hxL
    rw [h2, ← hxx, h3, Finset.mul_sum]
    refine Finset.sum_le_sum fun i _ => ?_
    by_cases hi : i.1 < j.1
    · rw [h1 i hi]; simp
    · exact mul_le_mul_of_nonneg_right (he (by simp only [Fin.le_def, Fin.val_castLE]; omega)) (sq_nonneg _)

/-- **Ky Fan**: the first eigenvalues sum to at most the energies of an orthonormal family -/
theorem kyFan (hE : IsEigenPairs L e U) (he : Monotone e) (hkn : k ≤ n) (Y : Matrix (Fin n) (Fin k) ℝ) (hY : Yᵀ * Y = 1) :
    ∑ i : Fin k, e (i.castLE hkn) ≤ ∑ i, (fun v => Y v i) ⬝ᵥ (L *ᵥ fun v => Y v i) := by
  have hUU := mul_eq_one_comm.1 hE.orthonormal
  set C := Uᵀ * Y with hC
  have hCC : Cᵀ * C = 1 := by
    rw [hC, Matrix.transpose_mul, Matrix.transpose_transpose, Matrix.mul_assoc, ← Matrix.mul_assoc U, hUU, Matrix.one_mul, hY]
  have hcol : ∀ i, ∑ j, C j i ^ 2 = 1 := fun i => by
    have := congrFun (congrFun hCC i) i
    rw [Matrix.mul_apply, Matrix.one_apply_eq] at this
    rw [← this]
    exact Finset.sum_congr rfl fun v _ => by rw [Matrix.transpose_apply]; ring
  -- rows of a matrix with orthonormal columns
  have hrow : ∀ j, ∑ i, C j i ^ 2 ≤ 1 := fun j => by
    set r : Fin k → ℝ := fun i => C j i with hr
    have h1 : ∑ a, (C *ᵥ r) a ^ 2 = ∑ i, r i ^ 2 := by
      rw [← norm hCC r]
      simp only [dotProduct]
      exact Finset.sum_congr rfl fun a _ => by ring
    have h2 : (C *ᵥ r) j = ∑ i, r i ^ 2 := by
      simp only [Matrix.mulVec, dotProduct]
      exact Finset.sum_congr rfl fun a _ => by rw [hr]; ring
    have h3 : (C *ᵥ r) j ^ 2 ≤ ∑ a, (C *ᵥ r) a ^ 2 := Finset.single_le_sum (f := fun a => (C *ᵥ r) a ^ 2) (fun _ _ => sq_nonneg _) (Finset.mem_univ j)
    rw [h1, h2] at h3
    have h0 : 0 ≤ ∑ i, r i ^ 2 := Finset.sum_nonneg fun _ _ => sq_nonneg _
    change ∑ i, r i ^ 2 ≤ 1
    nlinarith
  refine (Clusters.smallest hkn he (w := fun j => ∑ i, C j i ^ 2) (fun j => Finset.sum_nonneg fun _ _ => sq_nonneg _) hrow ?_).trans (le_of_eq ?_)
  · rw [Finset.sum_comm, Finset.sum_congr rfl fun i _ => hcol i]
    simp
  · simp only [Finset.mul_sum]
    rw [Finset.sum_comm]
    refine Finset.sum_congr rfl fun i _ => ?_
    have h2 := Weyl.quad_basis hE (Uᵀ *ᵥ fun v => Y v i)
    rw [Matrix.mulVec_mulVec, hUU, Matrix.one_mulVec] at h2
    rw [h2]
    rfl

/-- with a gap, the first eigenvectors span the same signals whichever are chosen -/
theorem projection (hE : IsEigenPairs L e U) (hV : IsEigenPairs L f V) (hL : ∀ i j, L i j = L j i) (hkn : k ≤ n) (hgap : ∀ (j : Fin k) (i : Fin n), k ≤ i.1 → f j < e i) :
    V * Vᵀ = Matrix.of fun a b => ∑ i : Fin k, U a (i.castLE hkn) * U b (i.castLE hkn) := by
  set A : Matrix (Fin n) (Fin k) ℝ := Matrix.of fun a i => U a (i.castLE hkn) with hA
  have hUU := mul_eq_one_comm.1 hE.orthonormal
  have horth : ∀ (i : Fin n) (j : Fin k), k ≤ i.1 → (Uᵀ * V) i j = 0 := fun i j hi => by
    have h1 : Matrix.diagonal e * (Uᵀ * V) = (Uᵀ * V) * Matrix.diagonal f := by
      have h2 : Uᵀ * L = Matrix.diagonal e * Uᵀ := by
        have := congrArg Matrix.transpose hE.eig
        rw [Matrix.transpose_mul, Matrix.transpose_mul, Matrix.diagonal_transpose] at this
        rwa [show Lᵀ = L from by ext a b; exact hL b a] at this
      rw [← Matrix.mul_assoc, ← h2, Matrix.mul_assoc, hV.eig, Matrix.mul_assoc]
    have h3 := congrFun (congrFun h1 i) j
    rw [Matrix.diagonal_mul, Matrix.mul_diagonal] at h3
    have h4 : (e i - f j) * (Uᵀ * V) i j = 0 := by linarith
    exact (mul_eq_zero.1 h4).resolve_left (sub_pos.2 (hgap j i hi)).ne'
  have hVA : V = A * (Aᵀ * V) := by
    have h1 : V = U * (Uᵀ * V) := by rw [← Matrix.mul_assoc, hUU, Matrix.one_mul]
    ext a j
    have h2 := congrFun (congrFun h1 a) j
    rw [h2, Matrix.mul_apply, Matrix.mul_apply]
    have h3 := Clusters.sum_castLE hkn fun i => U a i * (Uᵀ * V) i j
    have h4 : ∑ i : Fin k, A a i * (Aᵀ * V) i j = ∑ i : Fin k, U a (i.castLE hkn) * (Uᵀ * V) (i.castLE hkn) j :=
      Finset.sum_congr rfl fun i _ => by rw [hA]; rfl
    rw [h4, h3]
    refine Finset.sum_congr rfl fun i _ => ?_
    split
    · rfl
    · rename_i hi
      rw [horth i j (by omega), mul_zero]
  have hAA : Aᵀ * A = 1 := by
    ext i j
    have := congrFun (congrFun hE.orthonormal (i.castLE hkn)) (j.castLE hkn)
    rw [Matrix.mul_apply, Matrix.one_apply] at this
    rw [Matrix.mul_apply, Matrix.one_apply]
    refine Eq.trans ?_ (this.trans ?_)
    · rfl
    · simp only [(Fin.castLE_injective hkn).eq_iff]
  have hCC : (Aᵀ * V)ᵀ * (Aᵀ * V) = 1 := by
    rw [Matrix.transpose_mul, Matrix.transpose_transpose, Matrix.mul_assoc, ← hVA, hV.orthonormal]
  have h5 : V * Vᵀ = A * Aᵀ := by
    calc V * Vᵀ = (A * (Aᵀ * V)) * (A * (Aᵀ * V))ᵀ := by rw [← hVA]
      _ = A * ((Aᵀ * V) * (Aᵀ * V)ᵀ) * Aᵀ := by rw [Matrix.transpose_mul]; simp only [Matrix.mul_assoc]
      _ = A * Aᵀ := by rw [mul_eq_one_comm.1 hCC, Matrix.mul_one]
  rw [h5]
  ext a b
  rw [Matrix.mul_apply]
  rfl

/-- solvers that return the smallest eigenvalues exist -/
theorem exists_exact (n : ℕ) : ∃ S : Solvers n, Sound S ∧ Converges S ∧ ExactSM S := by
  classical
  obtain ⟨S0, hS, hC⟩ := exists_sound n
  have h2 : ∀ k (L : Matrix (Fin n) (Fin n) ℝ), ∃ r : (Fin k → ℝ) × Matrix (Fin n) (Fin k) ℝ,
      (∀ i j, L i j = L j i) → 0 < k → k < n → (IsEigenPairs L r.1 r.2 ∧ Monotone r.1 ∧ ∃ j, ∀ l, IsEigenvalue L l → |r.1 j| ≤ |l|) ∧
      ∀ (x : Fin n → ℝ) (l : ℝ), x ≠ 0 → L *ᵥ x = l • x → (∀ j, ∑ i, r.2 i j * x i = 0) → ∀ j, |r.1 j| ≤ |l| := by
    intro k L
    by_cases hL : ∀ i j, L i j = L j i
    swap; · exact ⟨(0, 0), fun h => absurd h hL⟩
    by_cases hk : 0 < k ∧ k < n
    swap; · exact ⟨(0, 0), fun _ h1 h2 => absurd ⟨h1, h2⟩ hk⟩
    obtain ⟨hk0, hkn⟩ := hk
    obtain ⟨e, U, hEU, hmono⟩ := exists_eigh L hL
    set σ := Tuple.sort fun i => |e i| with hσ
    have hsort : Monotone ((fun i => |e i|) ∘ σ) := Tuple.monotone_sort _
    set s : Finset (Fin n) := Finset.univ.image fun i : Fin k => σ (i.castLE hkn.le) with hs
    have hcard : s.card = k := by
      have hinj : Function.Injective fun i : Fin k => σ (i.castLE hkn.le) := fun a b hab => Fin.castLE_injective _ (σ.injective hab)
      rw [hs, Finset.card_image_of_injective _ hinj, Finset.card_univ, Fintype.card_fin]
    have hsmall : ∀ i ∈ s, ∀ j, j ∉ s → |e i| ≤ |e j| := fun i hi j hj => by
      obtain ⟨a, -, rfl⟩ := Finset.mem_image.1 hi
      obtain ⟨b, rfl⟩ := σ.surjective j
      refine hsort (Fin.le_def.2 ?_)
      simp only [Fin.val_castLE]
      by_contra hc
      exact hj (Finset.mem_image.2 ⟨⟨b, by omega⟩, Finset.mem_univ _, rfl⟩)
    let emb := s.orderEmbOfFin hcard
    have hmem : ∀ j, emb j ∈ s := fun j => Finset.orderEmbOfFin_mem s hcard j
    have hm0 : σ ⟨0, by omega⟩ ∈ s := Finset.mem_image.2 ⟨⟨0, hk0⟩, Finset.mem_univ _, rfl⟩
    refine ⟨(e ∘ emb, Matrix.of fun i j => U i (emb j)), fun _ _ _ => ⟨⟨⟨?_, ?_⟩, ?_, ?_⟩, ?_⟩⟩
    · ext i j
      have := congrFun (congrFun hEU.orthonormal (emb i)) (emb j)
      rw [Matrix.mul_apply] at this ⊢
      simp only [Matrix.transpose_apply, Matrix.of_apply, Matrix.one_apply, emb.injective.eq_iff] at this ⊢
      exact this
    · ext i j
      rw [Matrix.mul_diagonal]
      have := congrFun (congrFun hEU.eig i) (emb j)
      rw [Matrix.mul_diagonal, Matrix.mul_apply] at this
      rw [Matrix.mul_apply]
      simpa only [Matrix.of_apply, Function.comp] using this
    · exact hmono.comp emb.monotone
    · have : σ ⟨0, by omega⟩ ∈ Set.range emb := by
        rw [Finset.range_orderEmbOfFin]; exact hm0
      obtain ⟨j, hj⟩ := this
      refine ⟨j, fun l hl => ?_⟩
      obtain ⟨i, hi⟩ := hEU.complete hL hl
      simp only [Function.comp, hj]
      rw [← hi]
      obtain ⟨b, rfl⟩ := σ.surjective i
      exact hsort (Fin.le_def.2 (Nat.zero_le _))
    · intro x l hx hxl hort j
      -- a coordinate of `x` outside the selection
      have hUU := mul_eq_one_comm.1 hEU.orthonormal
      have hne : Uᵀ *ᵥ x ≠ 0 := fun hz => hx (by
        have := congrArg (fun z => U *ᵥ z) hz
        simpa only [Matrix.mulVec_mulVec, hUU, Matrix.one_mulVec, Matrix.mulVec_zero] using this)
      obtain ⟨i, hi⟩ := Function.ne_iff.1 hne
      have his : i ∉ s := fun hc => by
        have : i ∈ Set.range emb := by rw [Finset.range_orderEmbOfFin]; exact hc
        obtain ⟨j, rfl⟩ := this
        exact hi (hort j)
      have hil : e i = l := by
        have h2 : Uᵀ * L = Matrix.diagonal e * Uᵀ := by
          have := congrArg Matrix.transpose hEU.eig
          rw [Matrix.transpose_mul, Matrix.transpose_mul, Matrix.diagonal_transpose] at this
          rwa [show Lᵀ = L from by ext a b; exact hL b a] at this
        have h3 := congrFun (congrArg (fun z => Uᵀ *ᵥ z) hxl) i
        simp only [Matrix.mulVec_mulVec, h2, Matrix.mulVec_smul] at h3
        rw [← Matrix.mulVec_mulVec, Matrix.mulVec_diagonal, Pi.smul_apply, smul_eq_mul] at h3
        exact mul_right_cancel₀ hi h3
      rw [← hil]
      exact hsmall _ (hmem j) _ his
  choose g hg using h2
  refine ⟨⟨S0.eigh, fun k _ L => some (g k L), S0.eigshLM⟩, ⟨hS.eigh, ?_, hS.eigshLM⟩, ⟨hC.1, fun _ _ _ => rfl⟩, ?_⟩
  · intro k t L hL hk hkn r hr
    simp only [Option.some.injEq] at hr
    rw [← hr]
    exact (hg k L hL hk hkn).1
  · intro k t L hL hk hkn r hr
    simp only [Option.some.injEq] at hr
    rw [← hr]
    exact (hg k L hL hk hkn).2

end Partial

end PyGSP
