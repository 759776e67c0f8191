import Verif.Props.Bank

/-!
# The hypotheses of C28 - C40 are met by non-trivial graphs and filter banks
-/

namespace PyGSP

open Matrix Spec Polynomial GState

variable {n : ℕ}

/-- a complete set of eigenpairs contains every eigenvalue -/
theorem Spec.IsEigenPairs.mem_of_complete {k : ℕ} {L : Matrix (Fin n) (Fin n) ℝ} {e : Fin k → ℝ} {U : Matrix (Fin n) (Fin k) ℝ}
    (h : IsEigenPairs L e U) (hk : k = n) {v : ℝ} (hv : IsEigenvalue L v) : ∃ t, e t = v := by
  subst hk
  obtain ⟨x, hx, hLx⟩ := hv
  have hUU : U * Uᵀ = 1 := mul_eq_one_comm.1 h.orthonormal
  have hL : Uᵀ * L = Matrix.diagonal e * Uᵀ := by
    have := h.eig
    calc Uᵀ * L = Uᵀ * (L * U) * Uᵀ := by rw [Matrix.mul_assoc, Matrix.mul_assoc, hUU, Matrix.mul_one]
      _ = _ := by rw [this, ← Matrix.mul_assoc, h.orthonormal, Matrix.one_mul]
  have h1 : Matrix.diagonal e *ᵥ (Uᵀ *ᵥ x) = v • (Uᵀ *ᵥ x) := by
    rw [Matrix.mulVec_mulVec, ← hL, ← Matrix.mulVec_mulVec, hLx, Matrix.mulVec_smul]
  by_contra hne
  push Not at hne
  apply hx
  have h2 : Uᵀ *ᵥ x = 0 := by
    funext t
    have := congrFun h1 t
    rw [Matrix.mulVec_diagonal] at this
    have h3 : (e t - v) * (Uᵀ *ᵥ x) t = 0 := by
      rw [sub_mul, this]; simp
    exact (mul_eq_zero.1 h3).resolve_left (sub_ne_zero.2 (hne t))
  rw [← Matrix.one_mulVec x, ← hUU, ← Matrix.mulVec_mulVec, h2, Matrix.mulVec_zero]

/-- For every non-negative weight matrix with an edge between two different vertices there is a graph, a solver and a
history (one call of `compute_fourier_basis()`) after which the basis is complete and `lmax > 0`. -/
theorem exists_setup (M : Matrix (Fin n) (Fin n) ℝ) (hM : NonnegW M) {i j : Fin n} (hij : i ≠ j) (he : M i j ≠ 0) :
    ∃ g : Graph n ℝ, g.Built ∧ g.W.dense = M ∧ ∃ S : Solvers n, Sound S ∧ ∃ s : GState n,
      s = runAll S [.computeFourierBasis none] (GState.ofGraph g) ∧ Known s.lapType ∧
      (∃ b, s.basis = some b ∧ b.k = n) ∧ ∃ l, (0 < l ∧ s.lapType = .combinatorial ∧
        s.lmax = some (.fin l) ∧ ∀ v, IsEigenvalue s.L v → v ≤ l) ∧
        (s.getLmax S).1 = .ok (some (.fin l)) := by
  obtain ⟨g, hg, hd, hlt⟩ := Graph.exists_built (K := ℝ) M
  have hW : NonnegW g.W.dense := by rw [hd]; exact hM
  obtain ⟨S, hS, -⟩ := exists_sound n
  have hn : 0 < n := i.pos
  have h0 := GState.ofGraph_inv (S := S) g hg
  have hW0 : NonnegW (GState.ofGraph g).W.dense := by unfold GState.W; rw [h0.2.1]; exact hW
  have hk0 : GState.Known (GState.ofGraph g).lapType := by rw [h0.2.2.1]; exact hg.lapType_known
  have hnb : ∀ k, (GState.ofGraph g).hasBasis k = false := by intro k; simp [GState.hasBasis, h0.2.2.2.2.2]
  obtain ⟨h1, b, h2, h3, h4, h5, h6, h7⟩ := GState.computeFourierBasis_ok hS h0.1 hW0 hn hk0 none ⟨by simpa using hn, by simp⟩
      (.inl rfl) (hnb _)
  obtain ⟨hb, h8, -⟩ := h7 rfl
  have hb3 : b.k = n := by simpa using h3
  refine ⟨g, hg, hd, S, hS, _, rfl, ?_, ⟨b, h2, hb3⟩, b.e ⟨b.k - 1, by omega⟩, ⟨?_, ?_, h8, ?_⟩, ?_⟩
  · show Known ((GState.ofGraph g).computeFourierBasis S none).2.lapType
    rw [h6]; exact hk0
  · obtain ⟨hi, hWs, -⟩ := reach_inv hS hg [.computeFourierBasis none]
    have hi2 : Inv S ((GState.ofGraph g).computeFourierBasis S none).2 := hi
    have hW2 : NonnegW ((GState.ofGraph g).computeFourierBasis S none).2.W.dense := by
      have : ((GState.ofGraph g).computeFourierBasis S none).2.W = g.W := hWs
      rw [this]; exact hW
    obtain ⟨e1, e2, e3, -⟩ := (hi2.basis b h2).exact (hi2.psd hW2) (hi2.zero hW2)
    refine lt_of_le_of_ne (e3 _) fun hz => ?_
    have hall : b.e = 0 := by
      funext t
      refine le_antisymm ?_ (e3 t)
      show b.e t ≤ 0
      rw [hz]
      exact e2 (Fin.le_def.2 (by simp; omega))
    obtain ⟨lt, hlk, hL, hlt2⟩ := hi2.lap
    have hlc : lt = .combinatorial := by
      have := hlt2 (by rw [h6]; exact hk0)
      rw [this, h6, h0.2.2.1, hlt]
    subst hlc
    have hL0 : ((GState.ofGraph g).computeFourierBasis S none).2.L = 0 := by
      have hUU : b.U * b.Uᵀ = 1 := by
        obtain ⟨kk, e, U⟩ := b
        simp only at hb3
        subst hb3
        exact mul_eq_one_comm.1 e1.orthonormal
      have := e1.eig
      rw [hall] at this
      have h9 : ((GState.ofGraph g).computeFourierBasis S none).2.L * (b.U * b.Uᵀ) = 0 := by
        rw [← Matrix.mul_assoc, this]
        simp
      rwa [hUU, Matrix.mul_one] at h9
    have hWW : ((GState.ofGraph g).computeFourierBasis S none).2.W = g.W := hWs
    rw [hL0, hWW] at hL
    rw [laplacian_comb, Except.ok.injEq] at hL
    have h9 := congrFun (congrFun hL i) j
    rw [hd] at h9
    have h10 : wsym M i j = 0 := by simpa [combLap, hij] using h9
    have h11 := hM i j
    have h12 := hM j i
    have h13 : 0 < M i j := lt_of_le_of_ne h11 he.symm
    unfold wsym at h10
    linarith
  · show ((GState.ofGraph g).computeFourierBasis S none).2.lapType = _
    rw [h6, h0.2.2.1, hlt]
  · intro v hv
    obtain ⟨hi, hWs, -⟩ := reach_inv hS hg [.computeFourierBasis none]
    have hi2 : Inv S ((GState.ofGraph g).computeFourierBasis S none).2 := hi
    have hW2 : NonnegW ((GState.ofGraph g).computeFourierBasis S none).2.W.dense := by
      have : ((GState.ofGraph g).computeFourierBasis S none).2.W = g.W := hWs
      rw [this]; exact hW
    obtain ⟨e1, e2, -, -⟩ := (hi2.basis b h2).exact (hi2.psd hW2) (hi2.zero hW2)
    obtain ⟨t, ht⟩ := Spec.IsEigenPairs.mem_of_complete e1 hb3 (v := v) hv
    rw [← ht]
    exact e2 (Fin.le_def.2 (by simp; omega))
  · show (GState.getLmax S ((GState.ofGraph g).computeFourierBasis S none).2).1 = _
    unfold getLmax
    rw [h8]

/-- a bank of two polynomial kernels, `x` and `1 - 3 x` -/
noncomputable def polyBank2 : Bank :=
  ⟨[Kernel.pointwise fun x => (X : ℝ[X]).eval x, Kernel.pointwise fun x => (1 - 3 * X : ℝ[X]).eval x]⟩

theorem polyBank2_pointwise : polyBank2.IsPointwise fun i x => ((![X, 1 - 3 * X] : Fin 2 → ℝ[X]) i).eval x := by
  intro i
  fin_cases i <;> rfl

/-- a tight bank: `cos` and `sin` -/
noncomputable def tightBank2 : Bank := ⟨[Kernel.pointwise Real.cos, Kernel.pointwise Real.sin]⟩

theorem tightBank2_pointwise : tightBank2.IsPointwise ![Real.cos, Real.sin] := by
  intro i
  fin_cases i <;> rfl

/-- the path with 4 vertices -/
def path4 : Matrix (Fin 4) (Fin 4) ℝ := !![0, 1, 0, 0; 1, 0, 1, 0; 0, 1, 0, 1; 0, 0, 1, 0]

theorem path4_nonneg : NonnegW path4 := by
  intro i j; fin_cases i <;> fin_cases j <;> simp [path4]

/-- All the hypotheses of C28 - C36 hold together, on the path with 4 vertices. -/
example : ∃ g : Graph 4 ℝ, g.Built ∧ NonnegW g.W.dense ∧ g.W.dense = path4 ∧ ∃ S : Solvers 4, Sound S ∧
    ∃ s, s = runAll S [.computeFourierBasis none] (GState.ofGraph g) ∧ Known s.lapType ∧
    (∀ b, s.basis = some b → b.k = 4) ∧
    (∃ l, l ≠ 0 ∧ (s.getLmax S).1 = .ok (some (.fin l))) ∧
    (∃ b y, (s.getBasis S).1 = .ok (some b) ∧ b.k = 4 ∧ tightBank2.evaluate b.e = .ok y ∧ ∀ j, ∑ i, y i j ^ 2 = 1) ∧
    (∀ a, (polyBank2.filter S a .chebyshev 1 s).1 = (polyBank2.filter S a .exact 1 s).1) := by
  obtain ⟨g, hg, hd, S, hS, s, hs, hk, ⟨b, hb, hbk⟩, l, ⟨hl, -⟩, hlm⟩ :=
    exists_setup path4 path4_nonneg (i := 0) (j := 1) (by decide) (by simp [path4])
  have hW : NonnegW g.W.dense := by rw [hd]; exact path4_nonneg
  have hc : ∀ b, s.basis = some b → b.k = 4 := by
    intro b' hb'
    rw [hb] at hb'; cases hb'; exact hbk
  refine ⟨g, hg, hW, hd, S, hS, s, hs, hk, hc, ⟨l, hl.ne', hlm⟩, ?_, fun a => ?_⟩
  · refine ⟨b, _, by unfold getBasis; rw [hb], hbk, tightBank2_pointwise.evaluate b.e, fun j => ?_⟩
    exact (Fin.sum_univ_two _).trans (Real.cos_sq_add_sin_sq _)
  · refine C36_polynomials hS hg _ hs hW (by norm_num) hk hc hlm hl.ne' polyBank2 (by simp [polyBank2, Bank.Nf]) _
      polyBank2_pointwise 1 (by norm_num) (fun i => ?_) a
    fin_cases i
    · exact natDegree_X_le
    · show (1 - 3 * X : ℝ[X]).natDegree ≤ 1
      compute_degree

/-- Locality is not vacuous: vertex 3 is not within 2 hops of vertex 0, vertex 2 is. -/
example : ¬ WithinHops path4 2 0 3 ∧ WithinHops path4 2 0 2 := by
  constructor
  · rintro ⟨a, h1, b, h2, h3⟩
    have h3' : b = 3 := h3
    subst h3'
    revert h1 h2
    fin_cases a <;> simp [path4]
  · exact ⟨1, by simp [path4], 2, by simp [path4], rfl⟩

end PyGSP
