import Verif.Lemmas.Spectrum
import Verif.Props.Generators
import Verif.Props.FilterWitness
import Mathlib.Analysis.SpecialFunctions.Trigonometric.Basic

/-!
# C87: the Fourier basis of `Path(N)` is the orthonormal DCT-II
-/

namespace PyGSP.Spectrum

open Matrix Spec GState Classical

variable {n : ℕ}

/-! ## Orthonormal families -/

/-- eigenvectors of a symmetric matrix for different eigenvalues are orthogonal -/
theorem gram_diagonal {L V : Matrix (Fin n) (Fin n) ℝ} (hL : Lᵀ = L) {f : Fin n → ℝ} (hf : Function.Injective f) (h : L * V = V * diagonal f)
    {k l : Fin n} (hkl : k ≠ l) : (Vᵀ * V) k l = 0 := by
  have h1 : Vᵀ * L * V = Vᵀ * V * diagonal f := by rw [mul_assoc, h, mul_assoc]
  have h2 : Vᵀ * L * V = diagonal f * (Vᵀ * V) := by
    have : Vᵀ * L = diagonal f * Vᵀ := by
      have := congrArg transpose h
      rw [transpose_mul, transpose_mul, hL, diagonal_transpose] at this
      exact this
    rw [this, mul_assoc]
  have h3 := congrFun (congrFun (h1.symm.trans h2) k) l
  rw [mul_diagonal, diagonal_mul] at h3
  have h4 : ((Vᵀ * V) k l) * (f l - f k) = 0 := by linear_combination h3
  rcases mul_eq_zero.1 h4 with h5 | h5
  · exact h5
  · exact absurd (hf (sub_eq_zero.1 h5).symm) hkl

/-- when the eigenvalues are simple, the orthonormal eigenvectors are unique up to their signs -/
theorem basis_unique {L V U : Matrix (Fin n) (Fin n) ℝ} (hL : Lᵀ = L) {f : Fin n → ℝ} (hf : Function.Injective f) (hV : Vᵀ * V = 1)
    (h : L * V = V * diagonal f) (hU : Uᵀ * U = 1) (h' : L * U = U * diagonal f) (k : Fin n) :
    ∃ ε : ℝ, (ε = 1 ∨ ε = -1) ∧ ∀ i, U i k = ε * V i k := by
  have hV' : V * Vᵀ = 1 := mul_eq_one_comm.1 hV
  have hc : ∀ l m, l ≠ m → (Vᵀ * U) l m = 0 := by
    intro l m hlm
    have h1 : Vᵀ * L * U = Vᵀ * U * diagonal f := by rw [mul_assoc, h', mul_assoc]
    have h2 : Vᵀ * L * U = diagonal f * (Vᵀ * U) := by
      have : Vᵀ * L = diagonal f * Vᵀ := by
        have := congrArg transpose h
        rw [transpose_mul, transpose_mul, hL, diagonal_transpose] at this
        exact this
      rw [this, mul_assoc]
    have h3 := congrFun (congrFun (h1.symm.trans h2) l) m
    rw [mul_diagonal, diagonal_mul] at h3
    have h4 : ((Vᵀ * U) l m) * (f m - f l) = 0 := by linear_combination h3
    rcases mul_eq_zero.1 h4 with h5 | h5
    · exact h5
    · exact absurd (hf (sub_eq_zero.1 h5).symm) hlm
  have hUV : U = V * (Vᵀ * U) := by rw [← mul_assoc, hV', one_mul]
  have hn : ((Vᵀ * U)ᵀ * (Vᵀ * U)) k k = 1 := by
    rw [transpose_mul, transpose_transpose, mul_assoc, ← mul_assoc V, hV', one_mul, hU, one_apply_eq]
  have hq : (Vᵀ * U) k k ^ 2 = 1 := by
    rw [mul_apply, Finset.sum_eq_single k] at hn
    · rw [transpose_apply] at hn; rw [sq]; exact hn
    · intro b _ hb; rw [hc b k hb, mul_zero]
    · simp
  refine ⟨(Vᵀ * U) k k, (by rcases mul_eq_zero.1 (by linear_combination hq : ((Vᵀ * U) k k - 1) * ((Vᵀ * U) k k + 1) = 0) with h | h; exacts [.inl (by linarith), .inr (by linarith)]), fun i => ?_⟩
  have := congrFun (congrFun hUV i) k
  rw [mul_apply, Finset.sum_eq_single k] at this
  · rw [this, mul_comm]
  · intro b _ hb; rw [hc b k hb, mul_zero]
  · simp

/-! ## The cosine transform -/

/-- the sum over the neighbours on the path -/
theorem path_sum {N : ℕ} {R : Type} [CommRing R] (h : ℕ → R) (i : Fin N) :
    ∑ j : Fin N, (if i.1 + 1 = j.1 ∨ j.1 + 1 = i.1 then (1 : R) else 0) * (h i.1 - h j.1) =
      (if i.1 + 1 < N then h i.1 - h (i.1 + 1) else 0) + if 1 ≤ i.1 then h i.1 - h (i.1 - 1) else 0 := by
  rw [Fin.sum_univ_eq_sum_range (fun j => (if i.1 + 1 = j ∨ j + 1 = i.1 then (1 : R) else 0) * (h i.1 - h j)) N]
  have hs : ∀ j, (if i.1 + 1 = j ∨ j + 1 = i.1 then (1 : R) else 0) * (h i.1 - h j) =
      (if i.1 + 1 = j then h i.1 - h j else 0) + if j + 1 = i.1 then h i.1 - h j else 0 := by
    intro j
    by_cases h1 : i.1 + 1 = j
    · rw [if_pos (.inl h1), if_pos h1, if_neg (by omega)]; ring
    · by_cases h2 : j + 1 = i.1
      · rw [if_pos (.inr h2), if_neg h1, if_pos h2]; ring
      · rw [if_neg (by tauto), if_neg h1, if_neg h2]; ring
  simp only [hs, Finset.sum_add_distrib]
  congr 1
  · rw [Finset.sum_ite_eq]; simp
  · by_cases h1 : 1 ≤ i.1
    · rw [if_pos h1, Finset.sum_eq_single (i.1 - 1)]
      · rw [if_pos (by omega)]
      · intro b _ hb; rw [if_neg (by omega)]
      · intro hb; exact absurd (Finset.mem_range.2 (by omega)) hb
    · rw [if_neg h1]
      exact Finset.sum_eq_zero fun j _ => if_neg (by omega)

/-- the cosines at the middle points -/
noncomputable def dct (N k i : ℕ) : ℝ := Real.cos (Real.pi * k * (2 * i + 1) / (2 * N))

theorem dct_path {N : ℕ} (hN : 0 < N) (k i : ℕ) (hi : i < N) :
    ((if i + 1 < N then dct N k i - dct N k (i + 1) else 0) + if 1 ≤ i then dct N k i - dct N k (i - 1) else 0) =
      (2 - 2 * Real.cos (Real.pi * k / N)) * dct N k i := by
  have hNr : (N : ℝ) ≠ 0 := by exact_mod_cast hN.ne'
  have hp : ∀ x : ℝ, Real.cos (Real.pi * k * (2 * (x + 1) + 1) / (2 * N)) + Real.cos (Real.pi * k * (2 * (x - 1) + 1) / (2 * N)) =
      2 * Real.cos (Real.pi * k / N) * Real.cos (Real.pi * k * (2 * x + 1) / (2 * N)) := by
    intro x
    have e1 : Real.pi * k * (2 * (x + 1) + 1) / (2 * N) = Real.pi * k * (2 * x + 1) / (2 * N) + Real.pi * k / N := by field_simp; ring
    have e2 : Real.pi * k * (2 * (x - 1) + 1) / (2 * N) = Real.pi * k * (2 * x + 1) / (2 * N) - Real.pi * k / N := by field_simp; ring
    rw [e1, e2, Real.cos_add, Real.cos_sub]; ring
  have h1 : (if i + 1 < N then dct N k i - dct N k (i + 1) else 0) = dct N k i - Real.cos (Real.pi * k * (2 * ((i : ℝ) + 1) + 1) / (2 * N)) := by
    by_cases h : i + 1 < N
    · rw [if_pos h]; unfold dct; push_cast; ring_nf
    · rw [if_neg h]
      have hi' : (i : ℝ) = N - 1 := by
        have : i + 1 = N := by omega
        have : ((i + 1 : ℕ) : ℝ) = N := by rw [this]
        push_cast at this; linarith
      unfold dct
      have e1 : Real.pi * k * (2 * (i : ℝ) + 1) / (2 * N) = k * Real.pi - Real.pi * k / (2 * N) := by rw [hi']; field_simp; ring
      have e2 : Real.pi * k * (2 * ((i : ℝ) + 1) + 1) / (2 * N) = k * Real.pi + Real.pi * k / (2 * N) := by rw [hi']; field_simp; ring
      rw [e1, e2, Real.cos_sub, Real.cos_add, Real.sin_nat_mul_pi]; ring
  have h2 : (if 1 ≤ i then dct N k i - dct N k (i - 1) else 0) = dct N k i - Real.cos (Real.pi * k * (2 * ((i : ℝ) - 1) + 1) / (2 * N)) := by
    by_cases h : 1 ≤ i
    · rw [if_pos h]; unfold dct; push_cast [Nat.cast_sub h]; ring_nf
    · rw [if_neg h]
      have : i = 0 := by omega
      subst this
      unfold dct
      have : Real.pi * k * (2 * (((0 : ℕ) : ℝ) - 1) + 1) / (2 * N) = - (Real.pi * k * (2 * ((0 : ℕ) : ℝ) + 1) / (2 * N)) := by push_cast; ring
      rw [this, Real.cos_neg, sub_self]
  rw [h1, h2]
  have := hp i
  unfold dct
  linear_combination -this

/-- the squared norms -/
theorem dct_norm {N : ℕ} {k : ℕ} (hk : k < N) : ∑ i ∈ Finset.range N, dct N k i ^ 2 = if k = 0 then (N : ℝ) else N / 2 := by
  have hNr : (0 : ℝ) < N := by exact_mod_cast (by omega : 0 < N)
  by_cases h0 : k = 0
  · rw [if_pos h0, h0]
    simp [dct]
  · rw [if_neg h0]
    have htel : ∀ M : ℕ, 2 * Real.sin (Real.pi * k / N) * ∑ i ∈ Finset.range M, Real.cos (Real.pi * k / N * (2 * i + 1)) =
        Real.sin (Real.pi * k / N * (2 * M)) := by
      intro M
      induction M with
      | zero => simp
      | succ M ih =>
        rw [Finset.sum_range_succ, mul_add, ih]
        have e1 : Real.pi * k / N * (2 * (M : ℝ)) = Real.pi * k / N * (2 * M + 1) - Real.pi * k / N := by ring
        have e2 : Real.pi * k / N * (2 * ((M + 1 : ℕ) : ℝ)) = Real.pi * k / N * (2 * M + 1) + Real.pi * k / N := by push_cast; ring
        rw [e1, e2, Real.sin_sub, Real.sin_add]; ring
    have hz : ∑ i ∈ Finset.range N, Real.cos (Real.pi * k / N * (2 * i + 1)) = 0 := by
      have h1 := htel N
      have e : Real.pi * k / N * (2 * (N : ℝ)) = (2 * k : ℕ) * Real.pi := by push_cast; field_simp
      rw [e, Real.sin_nat_mul_pi] at h1
      have hs : 0 < Real.sin (Real.pi * k / N) := by
        have hk0 : (0 : ℝ) < k := by exact_mod_cast Nat.pos_of_ne_zero h0
        have hkN : (k : ℝ) < N := by exact_mod_cast hk
        refine Real.sin_pos_of_pos_of_lt_pi (by positivity) ?_
        rw [div_lt_iff₀ hNr]
        exact mul_lt_mul_of_pos_left hkN Real.pi_pos
      rcases mul_eq_zero.1 h1 with h2 | h2
      · nlinarith
      · exact h2
    have hsq : ∀ i : ℕ, dct N k i ^ 2 = 1 / 2 + Real.cos (Real.pi * k / N * (2 * i + 1)) / 2 := by
      intro i
      unfold dct
      have e : Real.pi * k / N * (2 * (i : ℝ) + 1) = 2 * (Real.pi * k * (2 * i + 1) / (2 * N)) := by field_simp
      rw [Real.cos_sq, e]
    simp only [hsq, Finset.sum_add_distrib, ← Finset.sum_div, hz]
    simp

/-- the frequencies of the path -/
theorem path_freq_strict {N : ℕ} (hN : 0 < N) : StrictMono fun k : Fin N => 2 - 2 * Real.cos (Real.pi * k.1 / N) := by
  have hNr : (0 : ℝ) < N := by exact_mod_cast hN
  intro a b hab
  have hab' : (a.1 : ℝ) < b.1 := by exact_mod_cast hab
  have hb : (b.1 : ℝ) < N := by exact_mod_cast b.2
  have := Real.strictAntiOn_cos (a := Real.pi * a.1 / N) (b := Real.pi * b.1 / N)
    ⟨by positivity, by rw [div_le_iff₀ hNr]; nlinarith [Real.pi_pos]⟩ ⟨by positivity, by rw [div_le_iff₀ hNr]; nlinarith [Real.pi_pos]⟩
    (by gcongr)
  simp only
  linarith

/-- the normalized cosines -/
noncomputable def dctMatrix (N : ℕ) : Matrix (Fin N) (Fin N) ℝ :=
  Matrix.of fun i k => Real.sqrt ((if k.1 = 0 then 1 else 2) / N) * Real.cos (Real.pi * k.1 * (2 * i.1 + 1) / (2 * N))

theorem combLap_symm {W : Matrix (Fin n) (Fin n) ℝ} : (combLap W)ᵀ = combLap W := by
  ext i j
  rw [transpose_apply]
  unfold combLap wsym
  simp only [of_apply]
  by_cases h : i = j
  · subst h; ring
  · rw [if_neg h, if_neg (Ne.symm h), add_comm]

theorem combLap_real {W : Matrix (Fin n) (Fin n) ℝ} (hu : Undirected W) (V : Matrix (Fin n) (Fin n) ℝ) (i k : Fin n) :
    (combLap W * V) i k = ∑ j, W i j * (V i k - V j k) := by
  have h := combLap_apply hu (V.map fun x : ℝ => (x : ℂ)) i k
  have e : ((combLap W).map (fun x : ℝ => (x : ℂ)) * V.map fun x : ℝ => (x : ℂ)) i k = (((combLap W * V) i k : ℝ) : ℂ) := by
    simp only [mul_apply, map_apply]
    push_cast
    rfl
  rw [e] at h
  simp only [map_apply] at h
  exact_mod_cast h

theorem dctMatrix_eig {N : ℕ} (hN : 0 < N) {W : Matrix (Fin N) (Fin N) ℝ} (hW : ∀ i j, W i j = if i.1 + 1 = j.1 ∨ j.1 + 1 = i.1 then 1 else 0) :
    combLap W * dctMatrix N = dctMatrix N * diagonal fun k : Fin N => 2 - 2 * Real.cos (Real.pi * k.1 / N) := by
  have hu : Undirected W := fun i j => by rw [hW, hW]; exact if_congr or_comm rfl rfl
  ext i k
  rw [combLap_real hu, mul_diagonal]
  have := path_sum (dct N k.1) i
  rw [dct_path hN k.1 i.1 i.2] at this
  simp only [hW, dctMatrix, of_apply]
  have e : ∀ j : Fin N, (if i.1 + 1 = j.1 ∨ j.1 + 1 = i.1 then (1 : ℝ) else 0) *
      (Real.sqrt ((if k.1 = 0 then 1 else 2) / N) * Real.cos (Real.pi * k.1 * (2 * i.1 + 1) / (2 * N)) -
        Real.sqrt ((if k.1 = 0 then 1 else 2) / N) * Real.cos (Real.pi * k.1 * (2 * j.1 + 1) / (2 * N))) =
      Real.sqrt ((if k.1 = 0 then 1 else 2) / N) * ((if i.1 + 1 = j.1 ∨ j.1 + 1 = i.1 then (1 : ℝ) else 0) * (dct N k.1 i.1 - dct N k.1 j.1)) := by
    intro j; unfold dct; ring
  simp only [e, ← Finset.mul_sum, this]
  unfold dct
  ring

theorem dctMatrix_orthonormal {N : ℕ} (hN : 0 < N) : (dctMatrix N)ᵀ * dctMatrix N = 1 := by
  have hNr : (0 : ℝ) < N := by exact_mod_cast hN
  ext k l
  by_cases h : k = l
  · subst h
    rw [one_apply_eq, mul_apply]
    have := dct_norm k.2
    rw [← Fin.sum_univ_eq_sum_range (fun i => dct N k.1 i ^ 2)] at this
    have e : ∀ i : Fin N, (dctMatrix N)ᵀ k i * dctMatrix N i k = (if k.1 = 0 then 1 else 2) / N * dct N k.1 i.1 ^ 2 := by
      intro i
      rw [transpose_apply]
      unfold dctMatrix dct
      rw [of_apply, mul_mul_mul_comm, Real.mul_self_sqrt (by split <;> positivity), sq]
    simp only [e, ← Finset.mul_sum, this]
    split <;> field_simp
  · rw [one_apply_ne h]
    let W : Matrix (Fin N) (Fin N) ℝ := Matrix.of fun i j => if i.1 + 1 = j.1 ∨ j.1 + 1 = i.1 then 1 else 0
    exact gram_diagonal (L := combLap W) combLap_symm (path_freq_strict hN).injective (dctMatrix_eig hN fun _ _ => rfl) h

/-- **C87** `compute_fourier_basis()` on `Path(N)` with the combinatorial Laplacian, after any history of calls: the eigenvalues are exactly
`2 - 2 cos(pi k / N)`, and the `k`-th Fourier mode is the `k`-th vector of the orthonormal DCT-II up to its sign. -/
theorem C87_path {N : ℕ} (hN : 0 < N) {lt : LapType} {g : Graph N ℝ} (hg : Gen.path N false lt = .ok g) {S : Solvers N} (hS : Sound S)
    (ops : List (Op N)) {s : GState N} (hs : s = runAll S ops (GState.ofGraph g)) (hc : s.lapType = .combinatorial) :
    (s.computeFourierBasis S none).1 = .ok () ∧ ∃ (e : Fin N → ℝ) (U : Matrix (Fin N) (Fin N) ℝ), (s.computeFourierBasis S none).2.basis = some ⟨N, e, U⟩ ∧
      (∀ k, e k = 2 - 2 * Real.cos (Real.pi * k.1 / N)) ∧
      ∀ k, ∃ ε : ℝ, (ε = 1 ∨ ε = -1) ∧ ∀ i, U i k = ε * (Real.sqrt ((if k.1 = 0 then 1 else 2) / N) * Real.cos (Real.pi * k.1 * (2 * i.1 + 1) / (2 * N))) := by
  have hlt : lt = .combinatorial ∨ lt = .normalized := by
    rcases lt with _ | _ | name
    · exact .inl rfl
    · exact .inr rfl
    · rw [(C67_errors false (.other name) N name).2] at hg; cases hg
  obtain ⟨g', h1, hb, -, hW⟩ := C67_weights hN false hlt
  rw [hg] at h1
  obtain rfl := Except.ok.inj h1
  have hW' : ∀ i j, g.W.dense i j = if i.1 + 1 = j.1 ∨ j.1 + 1 = i.1 then 1 else 0 := by
    intro i j; rw [hW]; exact if_congr (by simp) rfl rfl
  have hu : Undirected g.W.dense := fun i j => by rw [hW', hW']; exact if_congr or_comm rfl rfl
  have hnn : NonnegW g.W.dense := fun i j => by rw [hW']; split <;> norm_num
  have hL := L_combinatorial hS hb ops hs hc
  obtain ⟨h1, ⟨bk, e, U⟩, h2, h3, h4, h5, h6, h7, -⟩ := C25_fourier_basis hS hb hnn ops hs (by rw [hc]; exact .inl rfl) none hN le_rfl (Or.inl rfl)
  have hk : bk = N := le_antisymm h4 h3
  subst hk
  simp only at h5 h6 h7
  rw [hL] at h6
  obtain ⟨σ, hσ⟩ := same_spectrum (det_of_orthonormal h5) h6 (det_of_orthonormal (dctMatrix_orthonormal hN)) (dctMatrix_eig hN hW')
  have he : e = fun k : Fin bk => 2 - 2 * Real.cos (Real.pi * k.1 / bk) := eq_of_sorted h7 (path_freq_strict hN).monotone hσ
  subst he
  refine ⟨h1, _, U, h2, fun k => rfl, fun k => ?_⟩
  exact basis_unique combLap_symm (path_freq_strict hN).injective (dctMatrix_orthonormal hN) (dctMatrix_eig hN hW') h5 h6 k

/-- The hypotheses are met: `Path(5)`, freshly built. -/
example : ∃ (g : Graph 5 ℝ) (S : Solvers 5), Gen.path 5 false .combinatorial = .ok g ∧ Sound S ∧ (runAll S [] (GState.ofGraph g)).lapType = .combinatorial := by
  obtain ⟨g, h1, hb, h2, -⟩ := C67_weights (N := 5) (by norm_num) false (.inl rfl)
  obtain ⟨S, hS, -⟩ := exists_sound 5
  exact ⟨g, S, h1, hS, (ofGraph_inv (S := S) g hb).2.2.1.trans h2⟩

end PyGSP.Spectrum
