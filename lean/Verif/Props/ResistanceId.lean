import Verif.Props.Frequency
import Verif.Props.Utils
import Verif.Props.Fourier

/-!
# C114: identities of the effective resistances
-/

namespace PyGSP

open Matrix Spec GState Real

variable {n : ℕ} {S : Solvers n} {g : Graph n ℝ} {s : GState n} {e : Fin n → ℝ} {U : Matrix (Fin n) (Fin n) ℝ}
  {pinv : Matrix (Fin n) (Fin n) ℝ → Matrix (Fin n) (Fin n) ℝ}

theorem isPinv_spectral {A : Matrix (Fin n) (Fin n) ℝ} (he : IsEigenPairs A e U) : IsPinv A (U * diagonal (fun i => (e i)⁻¹) * Uᵀ) := by
  have hUU : U * Uᵀ = 1 := mul_eq_one_comm.1 he.orthonormal
  have hAe : A = U * diagonal e * Uᵀ := by rw [← he.eig, Matrix.mul_assoc, hUU, Matrix.mul_one]
  have hmul : ∀ a b : Fin n → ℝ, (U * diagonal a * Uᵀ) * (U * diagonal b * Uᵀ) = U * diagonal (fun i => a i * b i) * Uᵀ := by
    intro a b
    rw [← diagonal_mul_diagonal]
    simp only [Matrix.mul_assoc]
    rw [← Matrix.mul_assoc Uᵀ U, he.orthonormal, Matrix.one_mul]
  have hsym : ∀ a : Fin n → ℝ, (U * diagonal a * Uᵀ)ᵀ = U * diagonal a * Uᵀ := by
    intro a
    rw [Matrix.transpose_mul, Matrix.transpose_mul, Matrix.transpose_transpose, diagonal_transpose, Matrix.mul_assoc]
  rw [hAe]
  refine ⟨?_, ?_, ?_, ?_⟩
  · rw [hmul, hmul]; congr 3; funext i; exact mul_inv_mul_cancel _
  · rw [hmul, hmul]; congr 3; funext i; by_cases h : e i = 0 <;> simp [h]
  · rw [hmul, hsym]
  · rw [hmul, hsym]

theorem resistance_eq (h : Ready S g s) (hl : s.lapType = .combinatorial) (hb : s.basis = some ⟨n, e, U⟩) (hp : ∀ A, Aᵀ = A → IsPinv A (pinv A)) (i j : Fin n) :
    resistanceOfMatrix pinv s.L i j = ∑ k, (U i k - U j k) ^ 2 * (e k)⁻¹ := by
  obtain ⟨hE, -⟩ := h.pairs hb
  have hL := h.comb hl
  have hinv : invOrPinv pinv s.L = U * diagonal (fun i => (e i)⁻¹) * Uᵀ := by
    unfold invOrPinv
    rw [if_pos (by rw [hL]; exact det_combLap h.pos _)]
    exact (hp _ (by rw [hL]; exact combLap_isSymm _)).unique (isPinv_spectral hE)
  unfold resistanceOfMatrix
  simp only [hinv, Matrix.sub_apply, Matrix.add_apply, Matrix.transpose_apply, Matrix.of_apply]
  have ha : ∀ a b, (U * diagonal (fun i => (e i)⁻¹) * Uᵀ) a b = ∑ k, U a k * (e k)⁻¹ * U b k := fun a b => by
    rw [Matrix.mul_apply]
    simp only [Matrix.mul_diagonal, Matrix.transpose_apply]
  rw [ha, ha, ha, ha, ← Finset.sum_add_distrib, ← Finset.sum_sub_distrib, ← Finset.sum_sub_distrib]
  exact Finset.sum_congr rfl fun k _ => by ring

open Classical in
/-- **C114** The resistance between two vertices in terms of the frequencies and the eigenvectors. -/
theorem C114_spectral (h : Ready S g s) (hl : s.lapType = .combinatorial) (hb : s.basis = some ⟨n, e, U⟩) (hp : ∀ A, Aᵀ = A → IsPinv A (pinv A)) :
    ∃ R, resistanceDistance pinv s = .ok R ∧ ∀ i j, R i j = ∑ k with e k ≠ 0, (U i k - U j k) ^ 2 / e k := by
  refine ⟨_, (C55_lap_type s).2 hl, fun i j => ?_⟩
  rw [resistance_eq h hl hb hp, Finset.sum_filter]
  exact Finset.sum_congr rfl fun k _ => by by_cases hk : e k = 0 <;> simp [hk, div_eq_mul_inv]

theorem col_quad (hE : IsEigenPairs s.L e U) (k : Fin n) : (fun i => U i k) ⬝ᵥ (s.L *ᵥ fun i => U i k) = e k := by
  have := Weyl.quad_basis hE (Pi.single k 1)
  simp [Pi.single_apply, ite_pow, Matrix.mulVec_single_one, Matrix.col_def] at this
  exact this

theorem col_sum (h : Ready S g s) (hl : s.lapType = .combinatorial) (hE : IsEigenPairs s.L e U) {k : Fin n} (hk : e k ≠ 0) : ∑ i, U i k = 0 := by
  have hL := h.comb hl
  have h1 : (fun _ : Fin n => (1 : ℝ)) ᵥ* s.L = 0 := by
    rw [← Matrix.mulVec_transpose, hL, combLap_isSymm]
    funext i
    rw [combLap_mulVec]
    simp
  have h2 : (fun _ : Fin n => (1 : ℝ)) ᵥ* (s.L * U) = (fun _ : Fin n => (1 : ℝ)) ᵥ* (U * diagonal e) := by rw [hE.eig]
  rw [← Matrix.vecMul_vecMul, h1, Matrix.zero_vecMul, ← Matrix.vecMul_vecMul] at h2
  have h3 := congrFun h2 k
  rw [Matrix.vecMul_diagonal] at h3
  simp only [Pi.zero_apply, Matrix.vecMul, dotProduct, one_mul] at h3
  rcases mul_eq_zero.1 h3.symm with h4 | h4
  · exact h4
  · exact absurd h4 hk

theorem col_norm {L : Matrix (Fin n) (Fin n) ℝ} (hE : IsEigenPairs L e U) (k l : Fin n) : ∑ i, U i k * U i l = if k = l then 1 else 0 := by
  have := congrFun (congrFun hE.orthonormal k) l
  rwa [Matrix.mul_apply, Matrix.one_apply] at this

theorem row_norm {L : Matrix (Fin n) (Fin n) ℝ} (hE : IsEigenPairs L e U) (i j : Fin n) : ∑ k, U i k * U j k = if i = j then 1 else 0 := by
  have h1 : U * Uᵀ = 1 := mul_eq_one_comm.1 hE.orthonormal
  have := congrFun (congrFun h1 i) j
  rwa [Matrix.mul_apply, Matrix.one_apply] at this

open Classical in
/-- **C114** Kirchhoff index: the sum of all the resistances. -/
theorem C114_kirchhoff (h : Ready S g s) (hl : s.lapType = .combinatorial) (hb : s.basis = some ⟨n, e, U⟩) (hp : ∀ A, Aᵀ = A → IsPinv A (pinv A)) :
    ∃ R, resistanceDistance pinv s = .ok R ∧ ∑ i, ∑ j, R i j = 2 * n * ∑ k with e k ≠ 0, 1 / e k := by
  obtain ⟨hE, -⟩ := h.pairs hb
  refine ⟨_, (C55_lap_type s).2 hl, ?_⟩
  simp only [resistance_eq h hl hb hp]
  rw [Finset.sum_congr rfl fun i _ => Finset.sum_comm, Finset.sum_comm, Finset.sum_filter, Finset.mul_sum]
  refine Finset.sum_congr rfl fun k _ => ?_
  by_cases hk : e k = 0
  · simp [hk]
  rw [if_pos hk]
  have hz := col_sum h hl hE hk
  have h1 := col_norm hE k k
  rw [if_pos rfl] at h1
  have h2 : ∑ i, ∑ j, (U i k - U j k) ^ 2 * (e k)⁻¹ = (∑ i, ∑ j, (U i k * U i k + U j k * U j k - 2 * (U i k * U j k))) * (e k)⁻¹ := by
    rw [Finset.sum_mul]
    refine Finset.sum_congr rfl fun i _ => ?_
    rw [Finset.sum_mul]
    exact Finset.sum_congr rfl fun j _ => by ring
  rw [h2]
  have h3 : ∑ i, ∑ j, (U i k * U i k + U j k * U j k - 2 * (U i k * U j k)) = 2 * n := by
    simp only [Finset.sum_sub_distrib, Finset.sum_add_distrib, ← Finset.mul_sum, hz, h1, Finset.sum_const, Finset.card_univ, Fintype.card_fin, nsmul_eq_mul]
    simp only [mul_zero, Finset.sum_const_zero, sub_zero]
    rw [Finset.sum_congr rfl fun i _ => mul_left_comm (U i k) (n : ℝ) (U i k), ← Finset.mul_sum, h1]
    ring
  rw [h3]
  ring

/-- **C114** Foster's theorem: the sum over all edges of weight times resistance counts the edges of a spanning forest. -/
theorem C114_foster (h : Ready S g s) (hl : s.lapType = .combinatorial) (hp : ∀ A, Aᵀ = A → IsPinv A (pinv A)) :
    ∃ R, resistanceDistance pinv s = .ok R ∧ ∑ i, ∑ j, g.W.dense i j * R i j = 2 * (n - Nat.card (Quot (Arc g.W.dense))) := by
  obtain ⟨e, U, h0, hr, hb, hL, hlt, hE, -⟩ := C113_computed h
  refine ⟨_, (C55_lap_type s).2 hl, ?_⟩
  rw [← hlt] at hl
  rw [← hL]
  rw [← hL] at hE
  obtain ⟨hist, hs⟩ := hr.reached
  have hc := C27_zero_eigenvalues hr.sound hr.built hr.nonneg hist hs hr.pos hr.known ⟨n, e, U⟩ (by rw [getBasis_of hb]) rfl
  dsimp only at hc
  rw [← hc]
  simp only [resistance_eq hr hl hb hp, Finset.mul_sum]
  rw [Finset.sum_congr rfl fun i _ => Finset.sum_comm, Finset.sum_comm]
  have h1 : ∀ k, ∑ i, ∑ j, g.W.dense i j * ((U i k - U j k) ^ 2 * (e k)⁻¹) = if e k = 0 then 0 else 2 := fun k => by
    have := col_quad hE k
    rw [hr.comb hl, combLap_quad] at this
    unfold dirichlet at this
    have h2 : ∑ i, ∑ j, g.W.dense i j * ((U i k - U j k) ^ 2 * (e k)⁻¹) = (∑ i, ∑ j, g.W.dense i j * (U i k - U j k) ^ 2) * (e k)⁻¹ := by
      rw [Finset.sum_mul]
      refine Finset.sum_congr rfl fun i _ => ?_
      rw [Finset.sum_mul]
      exact Finset.sum_congr rfl fun j _ => by ring
    rw [h2]
    split
    · rename_i h3; rw [h3]; simp
    · rename_i h3
      rw [show ∑ i, ∑ j, g.W.dense i j * (U i k - U j k) ^ 2 = 2 * e k by linarith]
      field_simp
  rw [Finset.sum_congr rfl fun k _ => h1 k, Finset.sum_ite, Finset.sum_const_zero, zero_add, Finset.sum_const, nsmul_eq_mul]
  have h2 := Finset.card_filter_add_card_filter_not (s := (Finset.univ : Finset (Fin n))) (fun k => e k = 0)
  rw [Finset.card_univ, Fintype.card_fin] at h2
  have h3 : ((Finset.univ.filter fun k => e k = 0).card : ℝ) + (Finset.univ.filter fun k => ¬ e k = 0).card = n := by exact_mod_cast h2
  linarith

/-- **C114** In a connected graph every resistance lies between `2 / e[N - 1]` and `2 / e[1]`. -/
theorem C114_bounds (h : Ready S g s) (hl : s.lapType = .combinatorial) (hb : s.basis = some ⟨n, e, U⟩) (hc : Connected g.W.dense) (hn : 2 ≤ n)
    (hp : ∀ A, Aᵀ = A → IsPinv A (pinv A)) :
    ∃ R, resistanceDistance pinv s = .ok R ∧ 0 < e ⟨1, hn⟩ ∧ ∀ i j, i ≠ j → 2 / e ⟨n - 1, by omega⟩ ≤ R i j ∧ R i j ≤ 2 / e ⟨1, hn⟩ := by
  obtain ⟨hE, hm⟩ := h.pairs hb
  have hpos : ∀ k, 0 ≤ e k := fun k => h.eig_nonneg (hE.isEigenvalue k)
  have hconst : ∀ k, e k = 0 → ∀ i j, U i k = U j k := fun k hk i j => by
    refine combLap_ker h.nonneg hc (v := fun i => U i k) ?_ i j
    rw [← h.comb hl]
    have h1 := congrArg (fun M => M.col k) hE.eig
    have h2 : s.L *ᵥ (fun i => U i k) = (s.L * U).col k := by
      funext i
      simp [Matrix.mul_apply, Matrix.mulVec, dotProduct, Matrix.col_apply]
    rw [h2]
    funext i
    have := congrFun h1 i
    simp only [Matrix.col_apply, Matrix.mul_diagonal, hk, mul_zero] at this ⊢
    exact this
  have h1 : 0 < e ⟨1, hn⟩ := by
    refine lt_of_le_of_ne (hpos _) fun h0 => ?_
    have h00 : e ⟨0, by omega⟩ = 0 := le_antisymm ((hm (Fin.mk_le_mk.2 (by omega))).trans h0.symm.le) (hpos _)
    have c0 := hconst _ h00
    have c1 := hconst _ h0.symm
    have n0 := col_norm hE ⟨0, by omega⟩ ⟨0, by omega⟩
    have n1 := col_norm hE ⟨1, hn⟩ ⟨1, hn⟩
    have n2 := col_norm hE ⟨0, by omega⟩ ⟨1, hn⟩
    rw [if_neg (by simp)] at n2
    rw [if_pos rfl] at n0 n1
    rw [Finset.sum_congr rfl fun i _ => by rw [c0 i ⟨0, by omega⟩], Finset.sum_const, Finset.card_univ, Fintype.card_fin, nsmul_eq_mul] at n0
    rw [Finset.sum_congr rfl fun i _ => by rw [c1 i ⟨0, by omega⟩], Finset.sum_const, Finset.card_univ, Fintype.card_fin, nsmul_eq_mul] at n1
    rw [Finset.sum_congr rfl fun i _ => by rw [c0 i ⟨0, by omega⟩, c1 i ⟨0, by omega⟩], Finset.sum_const, Finset.card_univ, Fintype.card_fin, nsmul_eq_mul] at n2
    generalize U ⟨0, by omega⟩ ⟨0, by omega⟩ = a at *
    generalize U ⟨0, by omega⟩ ⟨1, hn⟩ = b at *
    have : ((n : ℝ) * (a * a)) * (n * (b * b)) = (n * (a * b)) ^ 2 := by ring
    rw [n0, n1, n2] at this
    norm_num at this
  refine ⟨_, (C55_lap_type s).2 hl, h1, fun i j hij => ?_⟩
  rw [resistance_eq h hl hb hp]
  have hd : ∑ k, (U i k - U j k) ^ 2 = 2 := by
    have a1 := row_norm hE i i
    have a2 := row_norm hE j j
    have a3 := row_norm hE i j
    rw [if_pos rfl] at a1 a2
    rw [if_neg hij] at a3
    have : ∑ k, (U i k - U j k) ^ 2 = ∑ k, U i k * U i k + ∑ k, U j k * U j k - 2 * ∑ k, U i k * U j k := by
      rw [Finset.mul_sum, ← Finset.sum_add_distrib, ← Finset.sum_sub_distrib]
      exact Finset.sum_congr rfl fun k _ => by ring
    rw [this, a1, a2, a3]
    norm_num
  have hz : ∀ k, e k = 0 → (U i k - U j k) ^ 2 = 0 := fun k hk => by rw [hconst k hk i j]; ring
  have hbig : ∀ k, e k ≠ 0 → e ⟨1, hn⟩ ≤ e k := fun k hk => by
    rcases Nat.eq_zero_or_pos k.val with h0 | h0
    · refine absurd ?_ hk
      by_contra h5
      have h6 : ∀ l, e l ≠ 0 := fun l => ne_of_gt (lt_of_lt_of_le (lt_of_le_of_ne (hpos k) (Ne.symm h5)) (hm (Fin.le_def.2 (by omega))))
      have h7 : (fun _ : Fin n => (1 : ℝ)) ᵥ* U = 0 := by
        funext l
        simpa [Matrix.vecMul, dotProduct] using col_sum h hl hE (h6 l)
      have h8 : (fun _ : Fin n => (1 : ℝ)) ᵥ* (U * Uᵀ) = 0 := by rw [← Matrix.vecMul_vecMul, h7, Matrix.zero_vecMul]
      rw [show U * Uᵀ = 1 from mul_eq_one_comm.1 hE.orthonormal, Matrix.vecMul_one] at h8
      exact one_ne_zero (congrFun h8 i)
    · exact hm (Fin.le_def.2 h0)
  constructor
  · rw [← hd, Finset.sum_div]
    refine Finset.sum_le_sum fun k _ => ?_
    by_cases hk : e k = 0
    · rw [hz k hk]; simp
    · rw [div_eq_mul_inv]
      refine mul_le_mul_of_nonneg_left ?_ (sq_nonneg _)
      have := lt_of_lt_of_le h1 (hbig k hk)
      exact inv_anti₀ this (hm (Fin.le_def.2 (by simp; omega)))
  · rw [← hd, Finset.sum_div]
    refine Finset.sum_le_sum fun k _ => ?_
    by_cases hk : e k = 0
    · rw [hz k hk]; simp
    · rw [div_eq_mul_inv]
      exact mul_le_mul_of_nonneg_left (inv_anti₀ h1 (hbig k hk)) (sq_nonneg _)

/-- The hypotheses are met: the path on four vertices. -/
example : ∃ (S : Solvers 4) (g : Graph 4 ℝ) (s : GState 4) (e : Fin 4 → ℝ) (U : Matrix (Fin 4) (Fin 4) ℝ) (pinv : Matrix (Fin 4) (Fin 4) ℝ → Matrix (Fin 4) (Fin 4) ℝ),
    g.W.dense = path4 ∧ Ready S g s ∧ s.lapType = .combinatorial ∧ s.basis = some ⟨4, e, U⟩ ∧ Connected g.W.dense ∧ ∀ A, Aᵀ = A → IsPinv A (pinv A) := by
  obtain ⟨S, g, s, hd, hr, hl, -⟩ := exists_ready path4 path4_nonneg (by norm_num)
  obtain ⟨e, U, -, h2, h3, -, h5, -⟩ := C113_computed hr
  obtain ⟨pinv, hp⟩ := exists_pinv 4
  exact ⟨S, g, _, e, U, pinv, hd, h2, by rw [h5, hl], h3, by rw [hd]; exact path4_connected, hp⟩

end PyGSP
