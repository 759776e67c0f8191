import Verif.Lemmas.Weyl
import Verif.Lemmas.Single
import Verif.Lemmas.LiveFilter
import Verif.Props.Interlacing
import Verif.Props.Monotone
import Verif.Props.Learning
import Verif.Props.Simplex
import Verif.Props.Relabel
import Verif.Props.FilterWitness

/-!
# C113: the vertex domain and the frequency domain

`s` is a graph object on which `compute_fourier_basis()` has been called: `s.basis = some ⟨n, e, U⟩`.
-/

namespace PyGSP

open Matrix Spec GState Real Learning Design

variable {n : ℕ} {S : Solvers n} {g : Graph n ℝ} {s : GState n} {e : Fin n → ℝ} {U : Matrix (Fin n) (Fin n) ℝ}

/-- A complete basis stored in the graph is what `compute_fourier_basis()` leaves behind. -/
theorem Spec.Ready.pairs (h : Ready S g s) (hb : s.basis = some ⟨n, e, U⟩) : IsEigenPairs s.L e U ∧ Monotone e := by
  obtain ⟨-, e', U', h1, h2, h3, -⟩ := h.fourier
  have : s.computeFourierBasis S none = (.ok (), s) := by
    unfold computeFourierBasis
    rw [if_pos]
    unfold hasBasis
    rw [hb]
    simp
  rw [this] at h1
  dsimp only at h1
  rw [hb] at h1
  simp only [Option.some.injEq, Basis.mk.injEq, heq_eq_eq, true_and] at h1
  obtain ⟨rfl, rfl⟩ := h1
  exact ⟨h2, h3⟩

theorem gft_of (hb : s.basis = some ⟨n, e, U⟩) (x : Fin n → ℝ) : s.gft S ⟨n, x⟩ = (.ok ⟨n, Uᵀ *ᵥ x⟩, s) := by
  unfold gft
  rw [getBasis_of hb]
  have : checkSignal n (⟨n, x⟩ : Rows ℝ) = .ok x := by
    unfold checkSignal
    simp
  rw [this]
  rfl

theorem IsEigenPairs.coord {L : Matrix (Fin n) (Fin n) ℝ} (h : IsEigenPairs L e U) (x : Fin n → ℝ) : U *ᵥ (Uᵀ *ᵥ x) = x := by
  rw [Matrix.mulVec_mulVec, mul_eq_one_comm.1 h.orthonormal, Matrix.one_mulVec]

/-- exact filtering with one kernel, in the coordinates of the stored basis -/
theorem filter_pointwise (h : Ready S g s) (hn : 2 ≤ n) (hb : s.basis = some ⟨n, e, U⟩) (ψ : ℝ → ℝ) (order : ℕ) (x : Fin n → ℝ) :
    (Bank.ofArg (.one (Kernel.pointwise ψ))).filter S (Arr.of1 x) .exact order s = (.ok (Arr.of1 (U *ᵥ fun k => ψ (e k) * (Uᵀ *ᵥ x) k)), s) := by
  obtain ⟨hist, hs⟩ := h.reached
  obtain ⟨e', U', -, -, hg, hf⟩ := single_setup h.sound h.built hist hs h.nonneg hn h.known h.complete
  rw [getBasis_of hb] at hg
  simp only [Except.ok.injEq, Option.some.injEq, Basis.mk.injEq, heq_eq_eq, true_and] at hg
  obtain ⟨rfl, rfl⟩ := hg
  rw [hf (Kernel.pointwise ψ) (fun k => ψ (e k)) rfl order x s (.inl rfl), getBasis_of hb]
  refine congrArg (fun t => (Except.ok (Arr.of1 t), s)) ?_
  unfold spectralOp
  rw [← Matrix.mulVec_mulVec, ← Matrix.mulVec_mulVec]
  refine congrArg (U *ᵥ ·) ?_
  funext k
  rw [Matrix.mulVec_diagonal]

/-- **C113** The energy of a signal is the sum of the frequencies weighted by the squared transform, the energy of its transform is its own energy,
and the Laplacian multiplies the transform by the frequencies. -/
theorem C113_energy (h : Ready S g s) (hb : s.basis = some ⟨n, e, U⟩) (x : Fin n → ℝ) :
    ∃ y : Fin n → ℝ, (s.gft S ⟨n, x⟩).1 = .ok ⟨n, y⟩ ∧ ∑ v, x v ^ 2 = ∑ k, y k ^ 2 ∧
      dirichletEnergyPy s.L ⟨n, x⟩ = .ok (∑ k, e k * y k ^ 2) ∧ (s.gft S ⟨n, s.L *ᵥ x⟩).1 = .ok ⟨n, fun k => e k * y k⟩ := by
  obtain ⟨hp, -⟩ := h.pairs hb
  have hx := IsEigenPairs.coord hp x
  refine ⟨Uᵀ *ᵥ x, by rw [gft_of hb], ?_, ?_, ?_⟩
  · have := Weyl.norm_basis hp (Uᵀ *ᵥ x)
    rw [hx, dot_sum_sq] at this
    exact this
  · have := Weyl.quad_basis hp (Uᵀ *ᵥ x)
    rw [hx] at this
    rw [← this]
    unfold dirichletEnergyPy checkSignal
    simp
    rfl
  · rw [gft_of hb]
    refine congrArg (fun t => (Except.ok (⟨n, t⟩ : Rows ℝ) : Py (Rows ℝ))) ?_
    conv_lhs => rw [← hx]
    rw [Matrix.mulVec_mulVec _ s.L U, hp.eig, ← Matrix.mulVec_mulVec, Matrix.mulVec_mulVec _ Uᵀ U, hp.orthonormal, Matrix.one_mulVec]
    funext k
    rw [Matrix.mulVec_diagonal]

/-- **C113** Exact filtering multiplies the transform by the kernel at the frequencies; the basis stays. -/
theorem C113_multiplier (h : Ready S g s) (hn : 2 ≤ n) (hb : s.basis = some ⟨n, e, U⟩) (ψ : ℝ → ℝ) (order : ℕ) (x : Fin n → ℝ) :
    ∃ y z : Fin n → ℝ, (s.gft S ⟨n, x⟩).1 = .ok ⟨n, y⟩ ∧
      (Bank.ofArg (.one (Kernel.pointwise ψ))).filter S (Arr.of1 x) .exact order s = (.ok (Arr.of1 z), s) ∧
      (s.gft S ⟨n, z⟩).1 = .ok ⟨n, fun k => ψ (e k) * y k⟩ ∧ (s.igft S ⟨n, fun k => ψ (e k) * y k⟩).1 = .ok ⟨n, z⟩ := by
  obtain ⟨hp, -⟩ := h.pairs hb
  refine ⟨_, _, by rw [gft_of hb], filter_pointwise h hn hb ψ order x, ?_, ?_⟩
  · rw [gft_of hb, Matrix.mulVec_mulVec, hp.orthonormal, Matrix.one_mulVec]
  · unfold igft checkSignal
    rw [getBasis_of hb]
    simp
    rfl

/-- **C113** Two exact filters applied one after the other, in either order, are the filter of the product of the kernels. -/
theorem C113_cascade (h : Ready S g s) (hn : 2 ≤ n) (hb : s.basis = some ⟨n, e, U⟩) (φ ψ : ℝ → ℝ) (order : ℕ) (x : Fin n → ℝ) :
    ∃ a b z : Fin n → ℝ, (Bank.ofArg (.one (Kernel.pointwise φ))).filter S (Arr.of1 x) .exact order s = (.ok (Arr.of1 a), s) ∧
      (Bank.ofArg (.one (Kernel.pointwise ψ))).filter S (Arr.of1 x) .exact order s = (.ok (Arr.of1 b), s) ∧
      (Bank.ofArg (.one (Kernel.pointwise fun l => φ l * ψ l))).filter S (Arr.of1 x) .exact order s = (.ok (Arr.of1 z), s) ∧
      (Bank.ofArg (.one (Kernel.pointwise ψ))).filter S (Arr.of1 a) .exact order s = (.ok (Arr.of1 z), s) ∧
      (Bank.ofArg (.one (Kernel.pointwise φ))).filter S (Arr.of1 b) .exact order s = (.ok (Arr.of1 z), s) := by
  obtain ⟨hp, -⟩ := h.pairs hb
  refine ⟨_, _, _, filter_pointwise h hn hb φ order x, filter_pointwise h hn hb ψ order x, filter_pointwise h hn hb _ order x, ?_, ?_⟩ <;>
  · rw [filter_pointwise h hn hb]
    refine congrArg (fun t => (Except.ok (Arr.of1 t), s)) ?_
    refine congrArg (U *ᵥ ·) ?_
    rw [Matrix.mulVec_mulVec, hp.orthonormal, Matrix.one_mulVec]
    funext k
    ring

/-- **C113** A signal without high frequencies is smooth, a signal without low frequencies is not. -/
theorem C113_band (h : Ready S g s) (hb : s.basis = some ⟨n, e, U⟩) (x y : Fin n → ℝ) (hy : (s.gft S ⟨n, x⟩).1 = .ok ⟨n, y⟩) (m : Fin n) :
    ∃ E, dirichletEnergyPy s.L ⟨n, x⟩ = .ok E ∧ ((∀ k, m < k → y k = 0) → E ≤ e m * ∑ v, x v ^ 2) ∧
      ((∀ k, k < m → y k = 0) → e m * ∑ v, x v ^ 2 ≤ E) := by
  obtain ⟨-, hm⟩ := h.pairs hb
  obtain ⟨y', h1, h2, h3, -⟩ := C113_energy h hb x
  rw [hy] at h1
  simp only [Except.ok.injEq, Rows.mk.injEq, heq_eq_eq, true_and] at h1
  subst h1
  refine ⟨_, h3, fun h0 => ?_, fun h0 => ?_⟩
  · rw [h2, Finset.mul_sum]
    refine Finset.sum_le_sum fun k _ => ?_
    rcases lt_or_ge m k with hk | hk
    · rw [h0 k hk]; simp
    · exact mul_le_mul_of_nonneg_right (hm hk) (sq_nonneg _)
  · rw [h2, Finset.mul_sum]
    refine Finset.sum_le_sum fun k _ => ?_
    rcases lt_or_ge k m with hk | hk
    · rw [h0 k hk]; simp
    · exact mul_le_mul_of_nonneg_right (hm hk) (sq_nonneg _)

/-- **C113** A signal cannot be concentrated both on the vertices and on the frequencies: the coherence `c` of the graph limits how much. -/
theorem C113_uncertainty (h : Ready S g s) (hb : s.basis = some ⟨n, e, U⟩) {c : ℝ} (hc : (s.getCoherence S).1 = .ok (some c)) (x y : Fin n → ℝ)
    (hy : (s.gft S ⟨n, x⟩).1 = .ok ⟨n, y⟩) (hx : x ≠ 0) :
    1 ≤ c ^ 2 * (Finset.univ.filter fun v => x v ≠ 0).card * (Finset.univ.filter fun k => y k ≠ 0).card := by
  obtain ⟨hist, hs⟩ := h.reached
  obtain ⟨b, hb', -, -, hU, -⟩ := C18_coherence h.sound h.built hist hs c hc
  have hst : (s.getCoherence S).2.basis = s.basis := by
    unfold getCoherence
    split
    · rfl
    · have : s.computeFourierBasis S none = (.ok (), s) := by
        unfold computeFourierBasis
        rw [if_pos]
        unfold hasBasis
        rw [hb]
        simp
      rw [this]
  rw [hst, hb] at hb'
  obtain rfl := Option.some.inj hb'
  dsimp only at hU
  obtain ⟨y', h1, h2, -, -⟩ := C113_energy h hb x
  rw [hy] at h1
  simp only [Except.ok.injEq, Rows.mk.injEq, heq_eq_eq, true_and] at h1
  subst h1
  rw [gft_of hb] at hy
  simp only [Except.ok.injEq, Rows.mk.injEq, heq_eq_eq, true_and] at hy
  set A := Finset.univ.filter fun v => x v ≠ 0 with hA
  set B := Finset.univ.filter fun k => y k ≠ 0 with hB
  have hE : 0 < ∑ v, x v ^ 2 := by
    obtain ⟨v, hv⟩ := Function.ne_iff.1 hx
    exact Finset.sum_pos' (fun _ _ => sq_nonneg _) ⟨v, Finset.mem_univ _, by have : x v ≠ 0 := hv; positivity⟩
  have hxA : ∑ v, x v ^ 2 = ∑ v ∈ A, x v ^ 2 := by
    rw [hA, Finset.sum_filter]
    exact Finset.sum_congr rfl fun v _ => by by_cases hv : x v = 0 <;> simp [hv]
  have hyB : ∑ k, y k ^ 2 = ∑ k ∈ B, y k ^ 2 := by
    rw [hB, Finset.sum_filter]
    exact Finset.sum_congr rfl fun v _ => by by_cases hv : y v = 0 <;> simp [hv]
  have hyk : ∀ k, y k ^ 2 ≤ c ^ 2 * (A.card * ∑ v, x v ^ 2) := fun k => by
    have e1 : y k = ∑ v ∈ A, U v k * x v := by
      rw [← hy, hA, Finset.sum_filter]
      simp only [Matrix.mulVec, dotProduct, Matrix.transpose_apply]
      exact Finset.sum_congr rfl fun v _ => by by_cases hv : x v = 0 <;> simp [hv]
    have e2 : (∑ v ∈ A, U v k * x v) ^ 2 ≤ (∑ v ∈ A, U v k ^ 2) * ∑ v ∈ A, x v ^ 2 := Finset.sum_mul_sq_le_sq_mul_sq _ _ _
    have e3 : ∑ v ∈ A, U v k ^ 2 ≤ A.card * c ^ 2 := by
      have := Finset.sum_le_card_nsmul A (fun v => U v k ^ 2) (c ^ 2) fun v _ => sq_le_sq' (by have := (abs_le.1 (hU v k)).1; linarith) (abs_le.1 (hU v k)).2
      simpa using this
    rw [e1]
    refine e2.trans ?_
    rw [← hxA]
    nlinarith [mul_le_mul_of_nonneg_right e3 hE.le]
  have h4 : ∑ v, x v ^ 2 ≤ B.card * (c ^ 2 * (A.card * ∑ v, x v ^ 2)) := by
    conv_lhs => rw [h2, hyB]
    have := Finset.sum_le_card_nsmul B (fun k => y k ^ 2) _ fun k _ => hyk k
    simpa using this
  have h5 : 1 * ∑ v, x v ^ 2 ≤ (c ^ 2 * A.card * B.card) * ∑ v, x v ^ 2 := by
    rw [one_mul]
    exact h4.trans (le_of_eq (by ring))
  exact le_of_mul_le_mul_right h5 hE

/-- **C113** `regression_tikhonov` with `tau > 0` and every vertex measured is the exact low-pass filter `1 / (1 + tau λ)`. -/
theorem C113_tikhonov (h : Ready S g s) (hn : 2 ≤ n) (hb : s.basis = some ⟨n, e, U⟩) {cg} (hcg : ExactCG cg) (isInt : Bool) {tau : ℝ} (ht : 0 < tau)
    (order : ℕ) (y : Fin n → ℝ) :
    ∃ x, regression1 cg isInt s.L y (fun _ : Fin n => true) tau = .ok x ∧
      (Bank.ofArg (.one (Kernel.pointwise fun l => 1 / (1 + tau * l)))).filter S (Arr.of1 y) .exact order s = (.ok (Arr.of1 x), s) := by
  obtain ⟨hp, -⟩ := h.pairs hb
  have hpos : ∀ k, 0 ≤ e k := fun k => h.eig_nonneg (hp.isEigenvalue k)
  obtain ⟨hist, hs⟩ := h.reached
  obtain ⟨hi, hWs, -⟩ := reach_inv h.sound h.built hist
  rw [← hs] at hi hWs
  have hpsd := hi.psd (show NonnegW s.W.dense by rw [hWs]; exact h.nonneg)
  have hsym : s.Lᵀ = s.L := by
    obtain ⟨lt, -, h, -⟩ := hi.lap
    ext i j
    exact laplacian_symm _ _ _ h j i
  have hx := hcg _ _ (penalised_symm (m := fun _ : Fin n => true) hsym tau) (penalised_psd hpsd ht) (penalised_consistent (m := fun _ : Fin n => true) hsym hpsd ht y)
  refine ⟨cg (penalised s.L (fun _ => true) tau) (mask (fun _ => true) y), ?_, ?_⟩
  · unfold regression1
    rw [if_pos ht, dif_pos rfl]
  rw [filter_pointwise h hn hb]
  refine congrArg (fun t => (Except.ok (Arr.of1 t), s)) ?_
  set x := cg (penalised s.L (fun _ => true) tau) (mask (fun _ => true) y) with hxd
  have h1 : ∀ k, (1 + tau * e k) * (Uᵀ *ᵥ x) k = (Uᵀ *ᵥ y) k := fun k => by
    have := congrFun (congrArg (Uᵀ *ᵥ ·) hx) k
    have hm : mask (fun _ : Fin n => true) y = y := funext fun v => by simp [mask]
    have hq : penalised s.L (fun _ : Fin n => true) tau = 1 + tau • s.L := by
      ext i j
      by_cases hij : i = j <;> simp [penalised, hij, Matrix.diagonal_apply, Matrix.one_apply]
    rw [hm, hq] at this
    have h2 : Uᵀ * s.L = Matrix.diagonal e * Uᵀ := by
      have := congrArg Matrix.transpose hp.eig
      rwa [Matrix.transpose_mul, Matrix.transpose_mul, hsym, Matrix.diagonal_transpose] at this
    rw [← this, Matrix.mulVec_mulVec, Matrix.mul_add, Matrix.mul_one, Matrix.mul_smul, h2, Matrix.add_mulVec, Matrix.smul_mulVec, ← Matrix.mulVec_mulVec, Pi.add_apply,
      Pi.smul_apply, Matrix.mulVec_diagonal]
    simp only [smul_eq_mul]
    ring
  rw [← IsEigenPairs.coord hp x]
  refine congrArg (U *ᵥ ·) ?_
  funext k
  have : 0 < 1 + tau * e k := by have := mul_nonneg ht.le (hpos k); linarith
  rw [← h1 k]
  field_simp

/-- **C113** After `compute_fourier_basis()` every graph with non-negative weights is in the situation of the theorems above. -/
theorem C113_computed (h : Ready S g s) : ∃ (e : Fin n → ℝ) (U : Matrix (Fin n) (Fin n) ℝ),
    (s.computeFourierBasis S none).1 = .ok () ∧ Ready S g (s.computeFourierBasis S none).2 ∧
    (s.computeFourierBasis S none).2.basis = some ⟨n, e, U⟩ ∧ (s.computeFourierBasis S none).2.L = s.L ∧
    (s.computeFourierBasis S none).2.lapType = s.lapType ∧ IsEigenPairs s.L e U ∧ Monotone e := by
  obtain ⟨h0, e, U, h1, h2, h3, -⟩ := h.fourier
  obtain ⟨hist, hs⟩ := h.reached
  have es : runAll S (hist ++ [.computeFourierBasis none]) (GState.ofGraph g) = (s.computeFourierBasis S none).2 := by
    rw [hs]; unfold runAll; rw [List.foldl_append]; rfl
  have hlt : (s.computeFourierBasis S none).2.lapType = s.lapType := by
    obtain ⟨-, -, l1⟩ := reach_inv h.sound h.built hist
    obtain ⟨-, -, l2⟩ := reach_inv h.sound h.built (hist ++ [.computeFourierBasis none])
    rw [es] at l2
    rw [← hs] at l1
    rw [l2, l1]
    simp [lastType, requestedType]
  have hL : (s.computeFourierBasis S none).2.L = s.L := by
    have h1 := (C18_laplacian h.sound h.built hist hs).2 h.known
    have h2 := (C18_laplacian h.sound h.built (hist ++ [.computeFourierBasis none]) es.symm).2 (by rw [hlt]; exact h.known)
    rw [hlt, h1] at h2
    exact (Except.ok.inj h2).symm
  refine ⟨e, U, h0, ⟨h.sound, h.built, h.nonneg, h.pos, ⟨_, es.symm⟩, by rw [hlt]; exact h.known, ?_⟩, h1, hL, hlt, h2, h3⟩
  rw [h1]
  intro b hb
  obtain rfl := Option.some.inj hb
  rfl

/-- The hypotheses are met: the path on four vertices, its basis, its coherence, a solver and a signal that is not zero. -/
example : ∃ (S : Solvers 4) (g : Graph 4 ℝ) (s : GState 4) (e : Fin 4 → ℝ) (U : Matrix (Fin 4) (Fin 4) ℝ) (c : ℝ) (x y : Fin 4 → ℝ),
    g.W.dense = path4 ∧ Ready S g s ∧ s.basis = some ⟨4, e, U⟩ ∧ (s.getCoherence S).1 = .ok (some c) ∧ x ≠ 0 ∧
    (s.gft S ⟨4, x⟩).1 = .ok ⟨4, y⟩ ∧ ∃ cg : Matrix (Fin 4) (Fin 4) ℝ → (Fin 4 → ℝ) → Fin 4 → ℝ, ExactCG cg := by
  obtain ⟨g, hg, hd, hlt⟩ := Graph.exists_built (K := ℝ) path4
  obtain ⟨S, hS, -⟩ := exists_sound 4
  have hW : NonnegW g.W.dense := by rw [hd]; exact path4_nonneg
  have h0 := GState.ofGraph_inv (S := S) g hg
  have hk0 : GState.Known (GState.ofGraph g).lapType := by rw [h0.2.2.1]; exact hg.lapType_known
  have hr : Ready S g (GState.ofGraph g) := ⟨hS, hg, hW, by norm_num, ⟨[], rfl⟩, hk0, by rw [h0.2.2.2.2.2]; intro b hb; cases hb⟩
  obtain ⟨e, U, h1, h2, h3, -⟩ := C113_computed hr
  obtain ⟨c, hco⟩ : ∃ c, (((GState.ofGraph g).computeFourierBasis S none).2.getCoherence S).1 = .ok (some c) := by
    obtain ⟨-, b, -, -, -, -, -, h4⟩ := GState.computeFourierBasis_ok hS h0.1 (show NonnegW (GState.ofGraph g).W.dense by unfold GState.W; rw [h0.2.1]; exact hW)
      (by norm_num) hk0 none ⟨by simp, by simp⟩ (.inl rfl) (by simp [GState.hasBasis, h0.2.2.2.2.2])
    obtain ⟨c, hc⟩ := Option.isSome_iff_exists.1 (h4 rfl).choose_spec.2.2
    unfold getCoherence
    rw [hc]
    exact ⟨c, rfl⟩
  exact ⟨S, g, _, e, U, c, fun _ => 1, _, hd, h2, h3, hco, fun h => one_ne_zero (congrFun h 0), by rw [gft_of h3], exists_cg 4⟩

end PyGSP
