import Verif.Lemmas.Lanczos

/-!
# C93: `lanczos`
-/

namespace PyGSP

open Matrix Polynomial

variable {n : ℕ}

namespace Spec

/-- The Euclidean norm. -/
noncomputable def euclid (x : Fin n → ℝ) : ℝ := Real.sqrt (∑ i, x i ^ 2)

/-- no entry outside the three central diagonals -/
def Tridiagonal {k : ℕ} (H : Matrix (Fin k) (Fin k) ℝ) : Prop := ∀ i j : Fin k, (j.1 + 1 < i.1 ∨ i.1 + 1 < j.1) → H i j = 0

end Spec

open Spec

theorem norm2_eq (x : Fin n → ℝ) : norm2 x = euclid x := by
  unfold norm2 euclid
  simp [dotProduct, pow_two]

section

variable {A : Matrix (Fin n) (Fin n) ℝ} {x : Fin n → ℝ} {k : ℕ} {st : LanczosState n}

/-- the matrix of the first `k` columns -/
def cols (st : LanczosState n) (k : ℕ) : Matrix (Fin n) (Fin k) ℝ := fun i j => st.V j i

theorem LInv.orthonormal (h : LInv A x k st) : (cols st k)ᵀ * cols st k = 1 := by
  ext i j
  rw [Matrix.mul_apply, Matrix.one_apply]
  have := h.ortho i i.2 j j.2
  simp only [dotProduct] at this
  simp only [cols, Matrix.transpose_apply, this, Fin.ext_iff]

theorem LInv.projection (h : LInv A x k st) (i j : Fin k) : ((cols st k)ᵀ * A * cols st k) i j = st.H i j := by
  rw [h.proj i j i.2 j.2, Matrix.mul_assoc, Matrix.mul_apply]
  simp only [dotProduct, cols, Matrix.transpose_apply, Matrix.mul_apply, mulVec]

theorem LInv.recurrence (h : LInv A x k st) (y : Fin k → ℝ) :
    A *ᵥ (cols st k *ᵥ y) = cols st k *ᵥ (((cols st k)ᵀ * A * cols st k) *ᵥ y) +
      y ⟨k - 1, by have := h.pos; omega⟩ • st.r := by
  have hcol : ∀ j : Fin k, A *ᵥ st.V j = (∑ i ∈ Finset.range k, st.H i j • st.V i) + (if j.1 = k - 1 then st.r else 0) := by
    intro j
    by_cases hj : j.1 = k - 1
    · rw [if_pos hj, hj]; exact h.last
    · rw [if_neg hj, add_zero]
      exact h.col j (by have := j.2; omega)
  have hv : ∀ z : Fin k → ℝ, cols st k *ᵥ z = ∑ j, z j • st.V j := by
    intro z
    funext v
    simp only [mulVec, dotProduct, cols, Finset.sum_apply, Pi.smul_apply, smul_eq_mul]
    exact Finset.sum_congr rfl fun j _ => mul_comm _ _
  rw [hv, hv, mulVec_sum]
  have e1 : ∀ j : Fin k, A *ᵥ (y j • st.V j) = (∑ i : Fin k, (y j * st.H i j) • st.V i) +
      (if j.1 = k - 1 then y j • st.r else 0) := by
    intro j
    rw [mulVec_smul, hcol, smul_add, ← Fin.sum_univ_eq_sum_range (fun i => st.H i j • st.V i), Finset.smul_sum]
    congr 1
    · exact Finset.sum_congr rfl fun i _ => smul_smul _ _ _
    · split_ifs <;> simp
  simp only [e1, Finset.sum_add_distrib]
  congr 1
  · rw [Finset.sum_comm]
    refine Finset.sum_congr rfl fun i _ => ?_
    rw [← Finset.sum_smul]
    congr 1
    simp only [mulVec, dotProduct, h.projection]
    exact Finset.sum_congr rfl fun j _ => mul_comm _ _
  · rw [Finset.sum_eq_single ⟨k - 1, by have := h.pos; omega⟩]
    · rw [if_pos rfl]
    · intro j _ hj
      rw [if_neg fun h' => hj (Fin.ext h')]
    · intro h'; exact absurd (Finset.mem_univ _) h'

theorem LInv.tri (h : LInv A x k st) : Tridiagonal ((cols st k)ᵀ * A * cols st k) := fun i j hij => by
  rw [h.projection]; exact h.far i j hij

/-- the powers of the projected matrix reach one index further at each step -/
theorem tri_pow {k : ℕ} {T : Matrix (Fin k) (Fin k) ℝ} (hT : Tridiagonal T) (i0 : Fin k) (h0 : i0.1 = 0) :
    ∀ (d : ℕ) (i : Fin k), d < i.1 → (T ^ d *ᵥ Pi.single i0 1) i = 0 := by
  intro d
  induction d with
  | zero =>
    intro i hi
    rw [pow_zero, one_mulVec, Pi.single_apply, if_neg]
    rintro rfl
    omega
  | succ d ih =>
    intro i hi
    rw [pow_succ', ← mulVec_mulVec]
    simp only [mulVec, dotProduct] at ih ⊢
    refine Finset.sum_eq_zero fun j _ => ?_
    by_cases hj : d < j.1
    · rw [ih j hj, mul_zero]
    · rw [hT i j (.inl (by omega)), zero_mul]

theorem LInv.krylov_pow (h : LInv A x k st) (d : ℕ) (hd : d < k) :
    A ^ d *ᵥ (cols st k *ᵥ Pi.single ⟨0, by have := h.pos; omega⟩ 1) =
      cols st k *ᵥ (((cols st k)ᵀ * A * cols st k) ^ d *ᵥ Pi.single ⟨0, by have := h.pos; omega⟩ 1) := by
  induction d with
  | zero => rw [pow_zero, pow_zero, one_mulVec, one_mulVec]
  | succ d ih =>
    rw [pow_succ' A, ← mulVec_mulVec, ih (by omega), h.recurrence, pow_succ' (_ * A * _),
      ← mulVec_mulVec _ _ (((cols st k)ᵀ * A * cols st k) ^ d), tri_pow h.tri ⟨0, by have := h.pos; omega⟩ rfl d _ (by simp only; omega), zero_smul, add_zero]

theorem LInv.krylov (h : LInv A x k st) (hx : x ≠ 0) (p : ℝ[X]) (hp : p.natDegree < k) :
    aeval A p *ᵥ x = norm2 x • (cols st k *ᵥ (aeval ((cols st k)ᵀ * A * cols st k) p *ᵥ
      Pi.single ⟨0, by have := h.pos; omega⟩ 1)) := by
  have hn := (norm2_pos hx).ne'
  have hx1 : x = norm2 x • (cols st k *ᵥ Pi.single ⟨0, by have := h.pos; omega⟩ 1) := by
    have : cols st k *ᵥ Pi.single ⟨0, by have := h.pos; omega⟩ 1 = st.V 0 := by
      funext v
      simp [cols]
    rw [this, h.first, smul_smul, mul_one_div_cancel hn, one_smul]
  conv_lhs => rw [hx1]
  rw [mulVec_smul]
  congr 1
  rw [aeval_eq_sum_range, aeval_eq_sum_range, sum_mulVec, sum_mulVec, mulVec_sum]
  refine Finset.sum_congr rfl fun d hd => ?_
  rw [smul_mulVec, smul_mulVec, mulVec_smul, h.krylov_pow d (by have := Finset.mem_range.1 hd; omega)]

theorem ortho_le {V : Matrix (Fin n) (Fin k) ℝ} (h : Vᵀ * V = 1) : k ≤ n := by
  have h1 : (Vᵀ * V).rank = k := by rw [h, Matrix.rank_one, Fintype.card_fin]
  have h2 : (Vᵀ * V).rank ≤ V.rank := Matrix.rank_mul_le_right _ _
  have h3 : V.rank ≤ n := by simpa using Matrix.rank_le_height V
  omega

end

variable {A : Matrix (Fin n) (Fin n) ℝ} {x : Fin n → ℝ} {order : ℕ}

theorem lanczos_cases (hA : Aᵀ = A) (hx : x ≠ 0) (ho : 1 ≤ order) :
    (∃ st, LInv A x order st ∧ lanczos A order x = .ok ⟨order, order, cols st order, (cols st order)ᵀ * A * cols st order⟩) ∨
    ∃ k st, k < order ∧ LInv A x k st ∧ norm2 st.r ≤ spacing1 ∧
      lanczos A order x = .ok ⟨k - 1, k, cols st k, fun i j => st.H i j⟩ := by
  unfold lanczos
  rw [if_neg (by rintro (h | h); exacts [hx h, by omega])]
  rcases lanczosLoop_cases (order := order) hA (order - 1) 1 _ (by omega) (LInv.init (A := A) x hx) with ⟨st, h, e⟩ | ⟨k, st, hk, h, hz, e⟩
  · left
    refine ⟨st, h, ?_⟩
    rw [e]
    congr 2
    funext i j
    rw [h.projection]
  · right
    exact ⟨k, st, hk, h, by rw [← h.norm]; exact hz, by rw [e]; rfl⟩

/-- **`lanczos` returns an orthonormal basis of the Krylov space and the projection of the matrix.**  For every symmetric matrix `A`,
every vector `x ≠ 0` and every order: the columns of `V` are orthonormal, the first one is `x / ‖x‖`, and every entry of `H` is
the one of `Vᵀ A V`, which is tridiagonal.  Either both arrays have `order` columns and `H` is square, or fewer columns are
returned and `H` lacks its last row. -/
theorem C93_projection (hA : Aᵀ = A) (hx : x ≠ 0) (ho : 1 ≤ order) :
    ∃ R, lanczos A order x = .ok R ∧ R.Vᵀ * R.V = 1 ∧ (∀ j : Fin R.cols, j.1 = 0 → ∀ v, R.V v j = x v / euclid x) ∧
      Tridiagonal (R.Vᵀ * A * R.V) ∧
      (∀ (i : Fin R.rows) (j i' : Fin R.cols), i'.1 = i.1 → R.H i j = (R.Vᵀ * A * R.V) i' j) ∧
      ((R.rows = order ∧ R.cols = order) ∨ (R.rows + 1 = R.cols ∧ R.cols < order)) := by
  rcases lanczos_cases hA hx ho with ⟨st, h, e⟩ | ⟨k, st, hk, h, hz, e⟩
  · refine ⟨_, e, h.orthonormal, ?_, h.tri, ?_, .inl ⟨rfl, rfl⟩⟩
    · intro j hj v
      show st.V j v = _
      rw [hj, h.first, ← norm2_eq]
      simp [div_eq_inv_mul]
    · intro i j i' hi
      have : i' = i := Fin.ext hi
      rw [this]
  · refine ⟨_, e, h.orthonormal, ?_, h.tri, ?_, .inr ⟨by have := h.pos; simp only; omega, hk⟩⟩
    · intro j hj v
      show st.V j v = _
      rw [hj, h.first, ← norm2_eq]
      simp [div_eq_inv_mul]
    · intro i j i' hi
      show st.H i j = ((cols st k)ᵀ * A * cols st k) i' j
      rw [h.projection, hi]

/-- **The Krylov property** on which the approximation of filters rests: when `H` is square, `p(A) x = ‖x‖ V p(H) e₁` for every
polynomial `p` of degree smaller than the order. -/
theorem C93_krylov (hA : Aᵀ = A) (hx : x ≠ 0) (ho : 1 ≤ order) {V : Matrix (Fin n) (Fin order) ℝ}
    {H : Matrix (Fin order) (Fin order) ℝ} (hR : lanczos A order x = .ok ⟨order, order, V, H⟩) (p : ℝ[X])
    (hp : p.natDegree < order) :
    H = Vᵀ * A * V ∧ aeval A p *ᵥ x = euclid x • (V *ᵥ (aeval H p *ᵥ Pi.single ⟨0, ho⟩ 1)) := by
  rcases lanczos_cases hA hx ho with ⟨st, h, e⟩ | ⟨k, st, hk, h, hz, e⟩
  · rw [e] at hR
    have h2 := Except.ok.inj hR
    simp only [LanczosOut.mk.injEq, heq_eq_eq, true_and] at h2
    obtain ⟨rfl, rfl⟩ := h2
    refine ⟨rfl, ?_⟩
    rw [← norm2_eq]
    exact h.krylov hx p hp
  · rw [e] at hR
    have h2 := congrArg LanczosOut.cols (Except.ok.inj hR)
    simp only at h2
    omega

/-- **The early stop.**  When fewer columns than asked are returned, the columns span an invariant subspace of `A` up to a vector
of norm at most `2⁻⁵²`: `A V = V (Vᵀ A V) + r e_lastᵀ`. -/
theorem C93_early_stop (hA : Aᵀ = A) (hx : x ≠ 0) (ho : 1 ≤ order) {R : LanczosOut n} (hR : lanczos A order x = .ok R)
    (hne : R.rows ≠ R.cols) : ∃ r : Fin n → ℝ, euclid r ≤ 1 / 2 ^ 52 ∧ R.Vᵀ *ᵥ r = 0 ∧
      ∀ (j : Fin R.cols) (v : Fin n), (A * R.V) v j = (R.V * (R.Vᵀ * A * R.V)) v j + if j.1 + 1 = R.cols then r v else 0 := by
  rcases lanczos_cases hA hx ho with ⟨st, h, e⟩ | ⟨k, st, hk, h, hz, e⟩
  · rw [e] at hR
    rw [← Except.ok.inj hR] at hne
    exact absurd rfl hne
  · rw [e] at hR
    have h2 := Except.ok.inj hR
    subst h2
    refine ⟨st.r, by rw [← norm2_eq]; exact hz, ?_, ?_⟩
    · funext j
      exact h.res j j.2
    · intro j v
      have h3 := congrFun (h.recurrence (Pi.single j 1)) v
      simp only [mulVec_single_one, Pi.add_apply, Pi.smul_apply, smul_eq_mul] at h3
      show (A * cols st k) v j = (cols st k * ((cols st k)ᵀ * A * cols st k)) v j + _
      rw [show (A * cols st k) v j = (A *ᵥ (cols st k).col j) v from rfl, h3]
      congr 1
      rw [Pi.single_apply]
      have := h.pos
      by_cases hj : j.1 + 1 = k
      · rw [if_pos (Fin.ext (by simp only; omega)), if_pos hj, one_mul]
      · rw [if_neg (fun h' => hj (by have := congrArg Fin.val h'; simp only at this; omega)), if_neg hj, zero_mul]

/-- **`H` is not square when the order exceeds the number of vertices** (a defect): the iteration then always stops early, and
the code keeps one row too few (`H[: k - 1]` for `k` columns), so that the eigenvalues of `H` cannot be computed. -/
theorem C93_square_violated (hA : Aᵀ = A) (hx : x ≠ 0) (ho : n < order) :
    ∃ R, lanczos A order x = .ok R ∧ R.rows + 1 = R.cols ∧ R.cols ≤ n := by
  obtain ⟨R, hR, h1, -, -, -, h2⟩ := C93_projection hA hx (order := order) (by omega)
  have := ortho_le h1
  exact ⟨R, hR, by omega, this⟩

/-- The hypotheses are met: the edge of two vertices and the first impulse, order two, gives a square `H`. -/
example : ∃ (V : Matrix (Fin 2) (Fin 2) ℝ) (H : Matrix (Fin 2) (Fin 2) ℝ),
    lanczos !![1, -1; -1, 1] 2 ![1, 0] = .ok ⟨2, 2, V, H⟩ := by
  refine ⟨fun i j => (lanczosStep !![1, -1; -1, 1] 2 1 (lanczosInit !![1, -1; -1, 1] ![1, 0])).V j i,
    fun i j => (lanczosStep !![1, -1; -1, 1] 2 1 (lanczosInit !![1, -1; -1, 1] ![1, 0])).H i j, ?_⟩
  unfold lanczos
  rw [if_neg (by
    rintro (h | h)
    · have := congrFun h 0
      simp at this
    · omega)]
  refine congrArg Except.ok ?_
  show lanczosLoop _ 2 1 1 _ = _
  unfold lanczosLoop
  rw [if_neg]
  · rfl
  · have h1 : norm2 (![1, 0] : Fin 2 → ℝ) = 1 := by simp [norm2, dotProduct]
    simp [lanczosInit, setEntry, h1, norm2, spacing1, vecHead, vecTail]
    norm_num

end PyGSP
