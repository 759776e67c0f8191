import Verif.Spec.Solvers
import Mathlib.Analysis.Matrix.Spectrum
import Mathlib.Data.Fin.Tuple.Sort

namespace PyGSP

open Matrix Spec

variable {n : ℕ}

/-- every symmetric matrix has an ascending orthonormal eigendecomposition -/
theorem exists_eigh (L : Matrix (Fin n) (Fin n) ℝ) (hL : ∀ i j, L i j = L j i) :
    ∃ (e : Fin n → ℝ) (U : Matrix (Fin n) (Fin n) ℝ), IsEigenPairs L e U ∧ Monotone e := by
  have hH : L.IsHermitian := by
    ext i j
    simp only [Matrix.conjTranspose_apply, star_trivial]
    exact hL j i
  let V : Matrix (Fin n) (Fin n) ℝ := (hH.eigenvectorUnitary : Matrix (Fin n) (Fin n) ℝ)
  have hV : Vᵀ * V = 1 := by
    have := Matrix.mem_unitaryGroup_iff'.1 hH.eigenvectorUnitary.2
    rw [Matrix.star_eq_conjTranspose, Matrix.conjTranspose_eq_transpose_of_trivial] at this
    exact this
  have hLV : ∀ i j, (L * V) i j = hH.eigenvalues j * V i j := by
    intro i j
    have := congrFun (hH.mulVec_eigenvectorBasis j) i
    simp only [Pi.smul_apply, smul_eq_mul] at this
    rw [← show V i j = (hH.eigenvectorBasis j).ofLp i from hH.eigenvectorUnitary_apply i j] at this
    rw [← this, Matrix.mul_apply]
    rfl
  let σ := Tuple.sort hH.eigenvalues
  refine ⟨hH.eigenvalues ∘ σ, Matrix.of fun i j => V i (σ j), ⟨?_, ?_⟩, Tuple.monotone_sort _⟩
  · ext i j
    have := congrFun (congrFun hV (σ i)) (σ j)
    rw [Matrix.mul_apply] at this ⊢
    simp only [Matrix.transpose_apply, Matrix.of_apply, Matrix.one_apply, σ.injective.eq_iff] at this ⊢
    exact this
  · ext i j
    rw [Matrix.mul_diagonal]
    have := hLV i (σ j)
    rw [Matrix.mul_apply] at this ⊢
    simp only [Matrix.of_apply, Function.comp]
    rw [this, mul_comm]

theorem Spec.IsEigenPairs.mulVec {k : ℕ} {L : Matrix (Fin n) (Fin n) ℝ} {e : Fin k → ℝ} {U : Matrix (Fin n) (Fin k) ℝ}
    (h : IsEigenPairs L e U) (j : Fin k) : L *ᵥ (fun i => U i j) = e j • fun i => U i j := by
  ext i
  have := congrFun (congrFun h.eig i) j
  rw [Matrix.mul_diagonal, Matrix.mul_apply] at this
  simp only [Matrix.mulVec, dotProduct, Pi.smul_apply, smul_eq_mul]
  rw [this, mul_comm]

theorem Spec.IsEigenPairs.col_ne_zero {k : ℕ} {L : Matrix (Fin n) (Fin n) ℝ} {e : Fin k → ℝ} {U : Matrix (Fin n) (Fin k) ℝ}
    (h : IsEigenPairs L e U) (j : Fin k) : (fun i => U i j) ≠ 0 := by
  intro h0
  have := congrFun (congrFun h.orthonormal j) j
  rw [Matrix.mul_apply, Matrix.one_apply_eq] at this
  have h1 : ∀ i, U i j = 0 := fun i => congrFun h0 i
  simp [h1] at this

theorem Spec.IsEigenPairs.isEigenvalue {k : ℕ} {L : Matrix (Fin n) (Fin n) ℝ} {e : Fin k → ℝ}
    {U : Matrix (Fin n) (Fin k) ℝ} (h : IsEigenPairs L e U) (j : Fin k) : IsEigenvalue L (e j) :=
  ⟨_, h.col_ne_zero j, h.mulVec j⟩

/-- A square orthonormal eigenbasis sees every eigenvalue. -/
theorem Spec.IsEigenPairs.complete {L : Matrix (Fin n) (Fin n) ℝ} {e : Fin n → ℝ}
    {U : Matrix (Fin n) (Fin n) ℝ} (h : IsEigenPairs L e U) (hL : ∀ i j, L i j = L j i) {l : ℝ}
    (hl : IsEigenvalue L l) : ∃ j, e j = l := by
  obtain ⟨x, hx, he⟩ := hl
  have hUU : U * Uᵀ = 1 := mul_eq_one_comm.1 h.orthonormal
  have hLt : Lᵀ = L := by ext i j; exact hL j i
  -- coefficients
  let c := Uᵀ *ᵥ x
  have hc : U *ᵥ c = x := by rw [Matrix.mulVec_mulVec, hUU, Matrix.one_mulVec]
  have hex : ∃ j, c j ≠ 0 := by
    by_contra hn
    push Not at hn
    apply hx
    rw [← hc, show c = 0 from funext hn, Matrix.mulVec_zero]
  obtain ⟨j, hj⟩ := hex
  refine ⟨j, ?_⟩
  have h1 : Uᵀ * L = Matrix.diagonal e * Uᵀ := by
    have := congrArg Matrix.transpose h.eig
    rw [Matrix.transpose_mul, Matrix.transpose_mul, Matrix.diagonal_transpose, hLt] at this
    exact this
  have h2 : Uᵀ *ᵥ (L *ᵥ x) = Matrix.diagonal e *ᵥ c := by
    rw [Matrix.mulVec_mulVec, h1, ← Matrix.mulVec_mulVec]
  rw [he, Matrix.mulVec_smul] at h2
  have h3 := congrFun h2 j
  rw [Matrix.mulVec_diagonal] at h3
  simp only [Pi.smul_apply, smul_eq_mul] at h3
  exact (mul_right_cancel₀ hj h3).symm

/-- Sound and converging solvers exist. -/
theorem exists_sound (n : ℕ) : ∃ S : Solvers n, Sound S ∧ Converges S := by
  classical
  -- an eigendecomposition for symmetric matrices
  have h1 : ∀ L : Matrix (Fin n) (Fin n) ℝ, ∃ r : (Fin n → ℝ) × Matrix (Fin n) (Fin n) ℝ,
      (∀ i j, L i j = L j i) → IsEigenPairs L r.1 r.2 ∧ Monotone r.1 := by
    intro L
    by_cases hL : ∀ i j, L i j = L j i
    · obtain ⟨e, U, h⟩ := exists_eigh L hL
      exact ⟨(e, U), fun _ => h⟩
    · exact ⟨(0, 0), fun h => absurd h hL⟩
  choose f hf using h1
  have h2 : ∀ k (L : Matrix (Fin n) (Fin n) ℝ), ∃ r : (Fin k → ℝ) × Matrix (Fin n) (Fin k) ℝ,
      (∀ i j, L i j = L j i) → 0 < k → k < n → IsEigenPairs L r.1 r.2 ∧ Monotone r.1 ∧
      ∃ j, ∀ l, IsEigenvalue L l → |r.1 j| ≤ |l| := by
    intro k L
    by_cases hL : ∀ i j, L i j = L j i
    swap; · exact ⟨(0, 0), fun h => absurd h hL⟩
    by_cases hk : 0 < k ∧ k < n
    swap; · exact ⟨(0, 0), fun _ h1 h2 => absurd ⟨h1, h2⟩ hk⟩
    obtain ⟨hk0, hkn⟩ := hk
    obtain ⟨e, U, hEU, hmono⟩ := exists_eigh L hL
    haveI : Nonempty (Fin n) := ⟨⟨0, by omega⟩⟩
    obtain ⟨m, -, hm⟩ := Finset.exists_min_image Finset.univ (fun i => |e i|) Finset.univ_nonempty
    obtain ⟨s, hms, -, hs⟩ := Finset.exists_subsuperset_card_eq (s := {m}) (t := Finset.univ) (n := k)
      (Finset.subset_univ _) (by rw [Finset.card_singleton]; omega) (by simpa using hkn.le)
    let emb := s.orderEmbOfFin hs
    refine ⟨(e ∘ emb, Matrix.of fun i j => U i (emb j)), fun _ _ _ => ⟨⟨?_, ?_⟩, ?_, ?_⟩⟩
    · ext i j
      have := congrFun (congrFun hEU.orthonormal (emb i)) (emb j)
      rw [Matrix.mul_apply] at this ⊢
      simp only [Matrix.transpose_apply, Matrix.of_apply, Matrix.one_apply, emb.injective.eq_iff] at this ⊢
      exact this
    · ext i j
      rw [Matrix.mul_diagonal]
      have := congrFun (congrFun hEU.eig i) (emb j)
      rw [Matrix.mul_diagonal, Matrix.mul_apply] at this
      rw [Matrix.mul_apply]
      simpa only [Matrix.of_apply, Function.comp] using this
    · exact hmono.comp emb.monotone
    · have : m ∈ Set.range emb := by
        rw [Finset.range_orderEmbOfFin]; exact hms (Finset.mem_singleton_self m)
      obtain ⟨j, hj⟩ := this
      refine ⟨j, fun l hl => ?_⟩
      obtain ⟨i, hi⟩ := hEU.complete hL hl
      simp only [Function.comp, hj]
      rw [← hi]
      exact hm i (Finset.mem_univ _)
  choose g hg using h2
  have h3 : ∀ L : Matrix (Fin n) (Fin n) ℝ, ∃ r : ℝ, 0 < n → (∀ i j, L i j = L j i) →
      ∃ x : Fin n → ℝ, x ≠ 0 ∧ x ⬝ᵥ (L *ᵥ x) = r * (x ⬝ᵥ x) := by
    intro L
    by_cases hn : 0 < n
    · refine ⟨(f L).1 ⟨n - 1, by omega⟩, fun _ hL => ⟨_, ((hf L hL).1).col_ne_zero ⟨n - 1, by omega⟩, ?_⟩⟩
      rw [((hf L hL).1).mulVec, dotProduct_smul, smul_eq_mul]
    · exact ⟨0, fun h => absurd h hn⟩
  choose w hw using h3
  refine ⟨⟨fun _ => f, fun k _ L => some (g k L), fun _ L => some (w L)⟩, ⟨?_, ?_, ?_⟩, ?_, ?_⟩
  · exact fun _ L hL => hf L hL
  · intro k t L hL hk hkn r hr
    simp only [Option.some.injEq] at hr
    rw [← hr]
    exact hg k L hL hk hkn
  · intro hn t L hL r hr
    simp only [Option.some.injEq] at hr
    rw [← hr]
    exact hw L hn hL
  · exact fun _ _ => rfl
  · exact fun _ _ _ => rfl

end PyGSP
