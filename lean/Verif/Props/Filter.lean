import Verif.Props.Fourier
import Verif.Lemmas.FilterAlg

/-!
# C28 - C34: exact filtering, adjointness, frames
-/

namespace PyGSP

open Matrix Spec Polynomial GState

variable {n : ℕ}

/-- The kernels of `f` are the functions `g 0`, `g 1`, ..., applied entry by entry. -/
def Bank.IsPointwise (f : Bank) (g : Fin f.Nf → ℝ → ℝ) : Prop := ∀ i, f.kernels.get i = Kernel.pointwise (g i)

theorem Bank.IsPointwise.evaluate {f : Bank} {g} (h : f.IsPointwise g) {k : ℕ} (x : Fin k → ℝ) :
    f.evaluate x = .ok fun i j => g i (x j) := by
  unfold Bank.evaluate
  rw [seqFin_ok]
  intro i
  rw [h i]
  rfl

theorem getBasis_split {S : Solvers n} {s : GState n} {b} (h : (s.getBasis S).1 = .ok (some b)) :
    s.getBasis S = (.ok (some b), (s.getBasis S).2) := by rw [← h]

/-! ## C28 -/

section C28

variable (S : Solvers n) (f : Bank) (s : GState n) (b : Basis n) (hb : (s.getBasis S).1 = .ok (some b)) (hbk : b.k = n)
  (y : Fin f.Nf → Fin b.k → ℝ) (hy : f.evaluate b.e = .ok y) (order : ℕ)

include hb hbk hy

/-- `filter(x, method="exact")` on one signal: output `i` is `U diag(g_i(e)) Uᵀ x`. -/
theorem C28_one_signal (x : Fin n → ℝ) : (f.filter S (Arr.of1 x) .exact order s).1 =
    .ok (Arr.of3 fun v (_ : Fin 1) i => (spectralOp b.U (y i) *ᵥ x) v).squeeze := by
  rw [Bank.filter_eq, parse_of1]
  simp only [Bank.ops_exact_intro order (getBasis_split hb) hbk hy]
  rfl

/-- On `k` signals (2-D input; `k = 1` or `k ≠ n_filters`). -/
theorem C28_many_signals {k : ℕ} (hk : k = 1 ∨ k ≠ f.Nf) (x : Fin n → Fin k → ℝ) :
    (f.filter S (Arr.of2 x) .exact order s).1 =
    .ok (Arr.of3 fun v j i => (spectralOp b.U (y i) *ᵥ fun w => x w j) v).squeeze := by
  rw [Bank.filter_eq, parse_of2_analysis _ _ hk]
  simp only [Bank.ops_exact_intro order (getBasis_split hb) hbk hy]
  rfl

/-- On `k` signals (3-D input with one feature, any `k`). -/
theorem C28_many_signals_3d {k : ℕ} (x : Fin n → Fin k → Fin 1 → ℝ) :
    (f.filter S (Arr.of3 x) .exact order s).1 =
    .ok (Arr.of3 fun v j i => (spectralOp b.U (y i) *ᵥ fun w => x w j 0) v).squeeze := by
  rw [Bank.filter_eq, parse_of3_analysis]
  simp only [Bank.ops_exact_intro order (getBasis_split hb) hbk hy]
  rfl

/-- Synthesis: with `n_filters ≠ 1` features the output is `∑_i U diag(g_i(e)) Uᵀ x_i`. -/
theorem C28_synthesis {k : ℕ} (h1 : f.Nf ≠ 1) (x : Fin n → Fin k → Fin f.Nf → ℝ) :
    (f.filter S (Arr.of3 x) .exact order s).1 =
    .ok (Arr.of3 fun v j (_ : Fin 1) => ∑ i, (spectralOp b.U (y i) *ᵥ fun w => x w j i) v).squeeze := by
  rw [Bank.filter_eq, parse_of3_synthesis _ _ h1]
  simp only [Bank.ops_exact_intro order (getBasis_split hb) hbk hy]
  rfl

/-- A 2-D array whose second dimension is `n_filters` is one signal with `n_filters` features. -/
theorem C28_synthesis_2d (h1 : f.Nf ≠ 1) (x : Fin n → Fin f.Nf → ℝ) :
    (f.filter S (Arr.of2 x) .exact order s).1 =
    .ok (Arr.of3 fun v (_ : Fin 1) (_ : Fin 1) => ∑ i, (spectralOp b.U (y i) *ᵥ fun w => x w i) v).squeeze := by
  rw [Bank.filter_eq, parse_of2_synthesis _ _ h1]
  simp only [Bank.ops_exact_intro order (getBasis_split hb) hbk hy]
  rfl

end C28

/-- The shapes returned: dimensions of size 1 are dropped. -/
theorem C28_shapes (hn : n ≠ 1) {k q : ℕ} (y : Fin n → Fin k → Fin q → ℝ) :
    (k ≠ 1 → q ≠ 1 → (Arr.of3 y).squeeze = Arr.of3 y) ∧
    (∀ _ : k ≠ 1, ∀ h : q = 1, (Arr.of3 y).squeeze = Arr.of2 fun v j => y v j ⟨0, by omega⟩) ∧
    (∀ h : k = 1, ∀ _ : q ≠ 1, (Arr.of3 y).squeeze = Arr.of2 fun v i => y v ⟨0, by omega⟩ i) ∧
    (∀ h : k = 1, ∀ h' : q = 1, (Arr.of3 y).squeeze = Arr.of1 fun v => y v ⟨0, by omega⟩ ⟨0, by omega⟩) := by
  refine ⟨fun h h' => squeeze_2mp hn h h' y, ?_, ?_, ?_⟩
  · intro h h'; subst h'; exact squeeze_2m1 hn h y
  · intro h h'; subst h; exact squeeze_21p hn h' y
  · intro h h'; subst h; subst h'; exact squeeze_211 hn y

theorem eig_of_basis {L U : Matrix (Fin n) (Fin n) ℝ} {e : Fin n → ℝ} (h : IsEigenPairs L e U) (l : ℝ) :
    IsEigenvalue L l ↔ ∃ j, e j = l := by
  constructor
  · rintro ⟨x, hx, hLx⟩
    have hUU : U * Uᵀ = 1 := mul_eq_one_comm.1 h.orthonormal
    by_contra hne
    push Not at hne
    have hz : Uᵀ *ᵥ x = 0 := by
      funext j
      have h1 : (Uᵀ *ᵥ (L *ᵥ x)) j = e j * (Uᵀ *ᵥ x) j := by
        have hL : L = U * diagonal e * Uᵀ := by rw [← h.eig, Matrix.mul_assoc, hUU, Matrix.mul_one]
        rw [Matrix.mulVec_mulVec]
        conv_lhs => rw [hL]
        rw [← Matrix.mul_assoc, ← Matrix.mul_assoc, h.orthonormal, Matrix.one_mul, ← Matrix.mulVec_mulVec]
        simp [Matrix.mulVec_diagonal]
      rw [hLx, Matrix.mulVec_smul] at h1
      simp only [Pi.smul_apply, smul_eq_mul] at h1
      have : (l - e j) * (Uᵀ *ᵥ x) j = 0 := by linarith
      rcases mul_eq_zero.1 this with h2 | h2
      · exact absurd (by linarith) (hne j)
      · exact h2
    apply hx
    have : U *ᵥ (Uᵀ *ᵥ x) = x := by rw [Matrix.mulVec_mulVec, hUU, Matrix.one_mulVec]
    rw [← this, hz, Matrix.mulVec_zero]
  · rintro ⟨j, rfl⟩
    exact h.isEigenvalue j

section C28'

variable {S : Solvers n} (hS : Sound S) {g : Graph n ℝ} (hg : g.Built) (hist : List (Op n)) {s : GState n}
  (hs : s = runAll S hist (GState.ofGraph g))

include hS hg hs

/-- after any history on non-negative weights, a complete basis is an exact eigendecomposition of the current `L` -/
theorem GState.readable_exact (hW : NonnegW g.W.dense) {b : Basis n}
    (hb : (s.getBasis S).1 = .ok (some b)) : IsEigenPairs s.L b.e b.U := by
  obtain ⟨hi, hWs, -⟩ := reach_inv hS hg hist
  rw [← hs] at hi hWs
  have hW' : NonnegW s.W.dense := by rw [hWs]; exact hW
  have hi' := getBasis_inv hS hi
  have hst := getBasis_stored (getBasis_split hb)
  have hLL : (s.getBasis S).2.L = s.L := by
    unfold getBasis
    split
    · rfl
    · simp only
      split
      · exact computeFourierBasis_L S none s
      · exact computeFourierBasis_L S none s
  have h1 := hi'.basis b hst.1
  rw [hLL] at h1
  exact (h1.exact (hi.psd hW') (hi.zero hW')).1

/-- on a graph with non-negative weights whose cached basis (if any) is complete, the basis can be read, and it is an
eigendecomposition of the current `L` -/
theorem GState.complete_basis (hW : NonnegW g.W.dense) (hn : 0 < n) (hk : Known s.lapType)
    (hcomplete : ∀ b, s.basis = some b → b.k = n) :
    ∃ b, (s.getBasis S).1 = .ok (some b) ∧ b.k = n ∧ IsEigenPairs s.L b.e b.U := by
  obtain ⟨b, hb, -, -⟩ := C18_fourier hS hg hist hs hW hn hk
  have he := GState.readable_exact hS hg hist hs hW hb
  have hbk : b.k = n := by
    cases hsb : s.basis with
    | some b' =>
      have : b' = b := by
        unfold getBasis at hb
        rw [hsb] at hb
        simpa using hb
      rw [← this]; exact hcomplete b' hsb
    | none =>
      obtain ⟨hi, hWs, -⟩ := reach_inv hS hg hist
      rw [← hs] at hi hWs
      obtain ⟨h1, b', h2, h3, -⟩ := computeFourierBasis_ok hS hi (by rw [hWs]; exact hW) hn hk none
        ⟨by simpa using hn, by simp⟩ (.inl rfl) (by simp [hasBasis, hsb])
      unfold getBasis at hb
      rw [hsb] at hb
      simp only [h1] at hb
      rw [h2] at hb
      simp only [Except.ok.injEq, Option.some.injEq] at hb
      rw [← hb]; simpa using h3
  exact ⟨b, hb, hbk, he⟩

/-- polynomial form of the operators of the exact method -/
theorem ops_exact_poly (hW : NonnegW g.W.dense) (hn : 0 < n) (hk : Known s.lapType)
    (hcomplete : ∀ b, s.basis = some b → b.k = n) (f : Bank) (k : Fin f.Nf → ℝ → ℝ) (hf : f.IsPointwise k) (order : ℕ)
    (p : Fin f.Nf → ℝ[X]) (hp : ∀ i l, IsEigenvalue s.L l → (p i).eval l = k i l) :
    f.ops S .exact order s = (.ok fun i => aeval s.L (p i), (s.getBasis S).2) := by
  obtain ⟨b, hb, hbk, he⟩ := GState.complete_basis hS hg hist hs hW hn hk hcomplete
  rw [Bank.ops_exact_intro order (getBasis_split hb) hbk (hf.evaluate b.e)]
  obtain ⟨kk, e, U⟩ := b
  simp only at hbk he
  subst hbk
  refine congrArg (fun z => (Except.ok z, (s.getBasis S).2)) ?_
  funext i
  rw [aeval_spectral he (p i)]
  congr 2
  funext j
  exact (hp i _ (he.isEigenvalue j)).symm

/-- **Exact filtering is the functional calculus of the Laplacian.**  After any history, on a graph with non-negative
weights whose cached basis (if any) is complete, filtering with kernels `g_i` never raises and output `i` is
`p_i(L) x`, for *every* choice of polynomials `p_i` that agree with `g_i` on the eigenvalues of the current `G.L`;
such polynomials exist.  So the result does not depend on the eigenvectors the solver returned. -/
theorem C28_function_of_L (hW : NonnegW g.W.dense) (hn : 0 < n) (hk : Known s.lapType)
    (hcomplete : ∀ b, s.basis = some b → b.k = n) (f : Bank) (k : Fin f.Nf → ℝ → ℝ) (hf : f.IsPointwise k) (order : ℕ)
    (x : Fin n → ℝ) :
    (∀ p : Fin f.Nf → ℝ[X], (∀ i l, IsEigenvalue s.L l → (p i).eval l = k i l) →
      (f.filter S (Arr.of1 x) .exact order s).1 =
        .ok (Arr.of3 fun v (_ : Fin 1) i => (aeval s.L (p i) *ᵥ x) v).squeeze) ∧
    ∃ p : Fin f.Nf → ℝ[X], ∀ i l, IsEigenvalue s.L l → (p i).eval l = k i l := by
  obtain ⟨b, hb, hbk, he⟩ := GState.complete_basis hS hg hist hs hW hn hk hcomplete
  have hmain := C28_one_signal S f s b hb hbk _ (hf.evaluate b.e) order x
  obtain ⟨kk, e, U⟩ := b
  simp only at hbk he hmain
  subst hbk
  constructor
  · intro p hp
    rw [hmain]
    refine congrArg (fun z => Except.ok (Arr.of3 z).squeeze) ?_
    funext v _ i
    rw [aeval_spectral he (p i)]
    congr 3
    funext j
    exact (hp i _ (he.isEigenvalue j)).symm
  · have : ∀ i : Fin f.Nf, ∃ p : ℝ[X], ∀ l, IsEigenvalue s.L l → p.eval l = k i l := by
      intro i
      refine ⟨Lagrange.interpolate (Finset.univ.image e) id (k i), fun l hl => ?_⟩
      obtain ⟨j, rfl⟩ := (eig_of_basis he l).1 hl
      exact Lagrange.eval_interpolate_at_node (v := id) (k i) (Function.Injective.injOn Function.injective_id)
        (Finset.mem_image_of_mem e (Finset.mem_univ j))
    choose p hp using this
    exact ⟨p, hp⟩

omit hS hg hs in
/-- With a partial basis (after `compute_fourier_basis(n_eigenvectors=k)`, `k < N`) exact filtering raises
AssertionError (once the kernels have been evaluated), on every valid signal. -/
theorem C28_partial_basis_violated (b : Basis n) (hb : (s.getBasis S).1 = .ok (some b)) (hbk : b.k < n) (f : Bank)
    (k : Fin f.Nf → ℝ → ℝ) (hf : f.IsPointwise k) (x : Fin n → ℝ) (order : ℕ) :
    (f.filter S (Arr.of1 x) .exact order s).1 = .error .assertionError := by
  rw [Bank.filter_eq, parse_of1]
  have : f.ops S .exact order s = (.error .assertionError, (s.getBasis S).2) := by
    unfold Bank.ops
    simp only
    rw [getBasis_split hb]
    simp only [hf.evaluate]
    rw [if_pos (by omega)]
  simp only [this]

end C28'

/-! ### energy -/

theorem sum_sq_eq_dot {m : ℕ} (x : Fin m → ℝ) : ∑ v, x v ^ 2 = x ⬝ᵥ x := by
  simp [dotProduct, pow_two]

theorem energy_spectralOp {k : ℕ} {U : Matrix (Fin n) (Fin k) ℝ} (ho : Uᵀ * U = 1) (h : Fin k → ℝ) (x : Fin n → ℝ) :
    ∑ v, (spectralOp U h *ᵥ x) v ^ 2 = ∑ j, h j ^ 2 * (Uᵀ *ᵥ x) j ^ 2 := by
  rw [sum_sq_eq_dot]
  have e : spectralOp U h *ᵥ x = U *ᵥ (fun j => h j * (Uᵀ *ᵥ x) j) := by
    unfold spectralOp
    rw [Matrix.mul_assoc, ← Matrix.mulVec_mulVec, ← Matrix.mulVec_mulVec]
    congr 1
    funext j
    rw [Matrix.mulVec_diagonal]
  rw [e, Matrix.dotProduct_mulVec, Matrix.vecMul_mulVec, ho, Matrix.vecMul_one]
  simp only [dotProduct]
  refine Finset.sum_congr rfl fun j _ => ?_
  ring

theorem energy_gft {U : Matrix (Fin n) (Fin n) ℝ} (ho : Uᵀ * U = 1) (x : Fin n → ℝ) :
    ∑ j, (Uᵀ *ᵥ x) j ^ 2 = ∑ v, x v ^ 2 := by
  rw [sum_sq_eq_dot, sum_sq_eq_dot, Matrix.dotProduct_mulVec, Matrix.vecMul_transpose, Matrix.mulVec_mulVec,
    mul_eq_one_comm.1 ho, Matrix.one_mulVec]

/-! ## C29 -/

section C29

variable {S : Solvers n} (hS : Sound S) {g : Graph n ℝ} (hg : g.Built) (hist : List (Op n)) {s : GState n}
  (hs : s = runAll S hist (GState.ofGraph g))

include hS hg hs

/-- `synthesize` is the adjoint of `analyze`, for both methods, any order, any number of signals, after any history:
`⟨analyze(x), y⟩ = ⟨x, synthesize(y)⟩`, whenever `analyze` does not raise. -/
theorem C29_adjoint (f : Bank) (h1 : f.Nf ≠ 1) (method : FMethod) (order : ℕ) {k : ℕ} (x : Fin n → Fin k → Fin 1 → ℝ)
    (y : Fin n → Fin k → Fin f.Nf → ℝ) (A : Arr) (hA : (f.analyze S (Arr.of3 x) method order s).1 = .ok A) :
    ∃ (a : Fin n → Fin k → Fin f.Nf → ℝ) (c : Fin n → Fin k → Fin 1 → ℝ), A = (Arr.of3 a).squeeze ∧
      (f.synthesize S (Arr.of3 y) method order s).1 = .ok (Arr.of3 c).squeeze ∧
      ∑ v, ∑ j, ∑ i, a v j i * y v j i = ∑ v, ∑ j, x v j 0 * c v j 0 := by
  obtain ⟨hi, -, -⟩ := reach_inv hS hg hist
  rw [← hs] at hi
  have e1 : f.analyze S (Arr.of3 x) method order s = f.filter S (Arr.of3 x) method order s := by
    unfold Bank.analyze; rw [if_neg (by simp [Arr.of3, Arr.last])]
  have e2 : f.synthesize S (Arr.of3 y) method order s = f.filter S (Arr.of3 y) method order s := by
    unfold Bank.synthesize; rw [if_neg (by simp [Arr.of3, Arr.ndim]), if_neg (by simp [Arr.of3, Arr.last])]
  rw [e1, Bank.filter_eq, parse_of3_analysis] at hA
  rw [e2, Bank.filter_eq, parse_of3_synthesis _ _ h1]
  simp only at hA ⊢
  rcases ho : f.ops S method order s with ⟨_ | M, s'⟩
  · simp [ho] at hA
  · simp only [ho, Except.ok.injEq] at hA ⊢
    refine ⟨_, _, hA.symm, rfl, ?_⟩
    have hM : ∀ i v w, M i v w = M i w v := fun i v w => by
      have := congrFun (congrFun (Bank.ops_symm hi ho i) w) v
      simpa using this
    simp only [Matrix.mul_apply, Matrix.of_apply]
    calc ∑ v, ∑ j, ∑ i, (∑ w, M i v w * x w j 0) * y v j i
        = ∑ v, ∑ j, ∑ i, ∑ w, M i v w * x w j 0 * y v j i := by simp only [Finset.sum_mul]
      _ = ∑ w, ∑ j, ∑ i, ∑ v, M i v w * x w j 0 * y v j i := by
          rw [Finset.sum_comm]
          rw [Finset.sum_comm (s := Finset.univ (α := Fin n)) (t := Finset.univ (α := Fin k))
            (f := fun w j => ∑ i, ∑ v, M i v w * x w j 0 * y v j i)]
          refine Finset.sum_congr rfl fun j _ => ?_
          rw [Finset.sum_comm]
          rw [Finset.sum_comm (s := Finset.univ (α := Fin n)) (t := Finset.univ (α := Fin f.Nf))
            (f := fun w i => ∑ v, M i v w * x w j 0 * y v j i)]
          refine Finset.sum_congr rfl fun i _ => ?_
          rw [Finset.sum_comm]
      _ = ∑ w, ∑ j, x w j 0 * ∑ i, ∑ v, M i w v * y v j i := by
          simp only [Finset.mul_sum]
          refine Finset.sum_congr rfl fun w _ => Finset.sum_congr rfl fun j _ => Finset.sum_congr rfl fun i _ =>
            Finset.sum_congr rfl fun v _ => ?_
          rw [hM i v w]; ring

/-- A single filter is self-adjoint. -/
theorem C29_single_selfadjoint (f : Bank) (h1 : f.Nf = 1) (method : FMethod) (order : ℕ) (x y : Fin n → ℝ) (hn : n ≠ 1)
    (A : Arr) (hA : (f.filter S (Arr.of1 x) method order s).1 = .ok A) :
    ∃ a c : Fin n → ℝ, A = Arr.of1 a ∧ (f.filter S (Arr.of1 y) method order s).1 = .ok (Arr.of1 c) ∧
      ∑ v, a v * y v = ∑ v, x v * c v := by
  obtain ⟨hi, -, -⟩ := reach_inv hS hg hist
  rw [← hs] at hi
  rw [Bank.filter_eq, parse_of1] at hA
  rw [Bank.filter_eq, parse_of1]
  simp only at hA ⊢
  rcases ho : f.ops S method order s with ⟨_ | M, s'⟩
  · simp [ho] at hA
  · simp only [ho, Except.ok.injEq] at hA ⊢
    have hsq := (C28_shapes hn (fun v (j : Fin 1) i => (M i * Matrix.of fun v (_ : Fin 1) => x v) v j)).2.2.2 rfl h1
    have hsq' := (C28_shapes hn (fun v (j : Fin 1) i => (M i * Matrix.of fun v (_ : Fin 1) => y v) v j)).2.2.2 rfl h1
    refine ⟨_, _, by rw [← hA]; exact hsq, hsq', ?_⟩
    have hM : ∀ i v w, M i v w = M i w v := fun i v w => by
      have := congrFun (congrFun (Bank.ops_symm hi ho i) w) v
      simpa using this
    simp only [Matrix.mul_apply, Matrix.of_apply, Finset.sum_mul, Finset.mul_sum]
    rw [Finset.sum_comm]
    refine Finset.sum_congr rfl fun w _ => Finset.sum_congr rfl fun v _ => ?_
    rw [hM]; ring

end C29

/-! ## C30, C31 -/

theorem boundsAt_spec {f : Bank} {k : ℕ} {x : Fin k → ℝ} {A B : ℝ} (h : f.boundsAt x = .ok (A, B)) :
    ∃ y, f.evaluate x = .ok y ∧ (∀ j, A ≤ ∑ i, y i j ^ 2 ∧ ∑ i, y i j ^ 2 ≤ B) ∧ (∃ j, ∑ i, y i j ^ 2 = A) ∧
      ∃ j, ∑ i, y i j ^ 2 = B := by
  unfold Bank.boundsAt Bank.sumSquares at h
  cases hy : f.evaluate x with
  | error e => simp [hy] at h
  | ok y =>
    simp only [hy] at h
    unfold arrMin arrMax at h
    by_cases hk : 0 < k
    · simp only [hk, dite_true, Except.ok.injEq, Prod.mk.injEq] at h
      refine ⟨y, rfl, fun j => ⟨?_, ?_⟩, ?_, ?_⟩
      · rw [← h.1]; exact Finset.inf'_le _ (Finset.mem_univ j)
      · rw [← h.2]; exact Finset.le_sup' (f := fun j => ∑ i, y i j ^ 2) (Finset.mem_univ j)
      · obtain ⟨j, -, hj⟩ := Finset.exists_mem_eq_inf' (⟨⟨0, hk⟩, Finset.mem_univ _⟩ : (Finset.univ : Finset (Fin k)).Nonempty)
          (fun j => ∑ i, y i j ^ 2)
        exact ⟨j, by rw [← h.1]; exact hj.symm⟩
      · obtain ⟨j, -, hj⟩ := Finset.exists_mem_eq_sup' (⟨⟨0, hk⟩, Finset.mem_univ _⟩ : (Finset.univ : Finset (Fin k)).Nonempty)
          (fun j => ∑ i, y i j ^ 2)
        exact ⟨j, by rw [← h.2]; exact hj.symm⟩
    · simp [hk] at h

section C30

variable {S : Solvers n} (hS : Sound S) {g : Graph n ℝ} (hg : g.Built) (hist : List (Op n)) {s : GState n}
  (hs : s = runAll S hist (GState.ofGraph g)) (f : Bank) (b : Basis n) (hb : (s.getBasis S).1 = .ok (some b))
  (hbk : b.k = n) (A B : ℝ) (hAB : (f.estimateFrameBounds S (some ⟨b.k, b.e⟩) s).1 = .ok (A, B)) (order : ℕ)

include hS hg hs hb hbk hAB

/-- With `A, B = estimate_frame_bounds(G.e)`: `A ‖x‖² ≤ ‖analyze(x)‖² ≤ B ‖x‖²` for every signal, and both bounds are
attained by some non-zero signal. -/
theorem C30_frame_bounds :
    (∀ x : Fin n → ℝ, ∃ a : Fin n → Fin 1 → Fin f.Nf → ℝ,
      (f.analyze S (Arr.of1 x) .exact order s).1 = .ok (Arr.of3 a).squeeze ∧
      A * ∑ v, x v ^ 2 ≤ ∑ v, ∑ i, a v 0 i ^ 2 ∧ ∑ v, ∑ i, a v 0 i ^ 2 ≤ B * ∑ v, x v ^ 2) ∧
    (∃ x : Fin n → ℝ, x ≠ 0 ∧ ∃ a : Fin n → Fin 1 → Fin f.Nf → ℝ,
      (f.analyze S (Arr.of1 x) .exact order s).1 = .ok (Arr.of3 a).squeeze ∧
      ∑ v, ∑ i, a v 0 i ^ 2 = A * ∑ v, x v ^ 2) ∧
    (∃ x : Fin n → ℝ, x ≠ 0 ∧ ∃ a : Fin n → Fin 1 → Fin f.Nf → ℝ,
      (f.analyze S (Arr.of1 x) .exact order s).1 = .ok (Arr.of3 a).squeeze ∧
      ∑ v, ∑ i, a v 0 i ^ 2 = B * ∑ v, x v ^ 2) := by
  obtain ⟨ho, -⟩ := readable_orthonormal hS hg hist hs hb
  obtain ⟨y, hy, hle, hA, hB⟩ := boundsAt_spec (f := f) (x := b.e) hAB
  have hfil : ∀ x : Fin n → ℝ, (f.analyze S (Arr.of1 x) .exact order s).1 =
      .ok (Arr.of3 fun v (_ : Fin 1) i => (spectralOp b.U (y i) *ᵥ x) v).squeeze := by
    intro x
    have : f.analyze S (Arr.of1 x) .exact order s = f.filter S (Arr.of1 x) .exact order s := by
      unfold Bank.analyze; rw [if_neg (by simp [Arr.of1, Arr.ndim])]
    rw [this]
    exact C28_one_signal S f s b hb hbk y hy order x
  have henergy : ∀ x : Fin n → ℝ, ∑ v, ∑ i, (spectralOp b.U (y i) *ᵥ x) v ^ 2 =
      ∑ j, (∑ i, y i j ^ 2) * (b.Uᵀ *ᵥ x) j ^ 2 := by
    intro x
    rw [Finset.sum_comm]
    simp only [energy_spectralOp ho, Finset.sum_mul]
    exact Finset.sum_comm
  obtain ⟨k, e, U⟩ := b
  simp only at hbk ho hle hA hB hfil henergy y
  subst hbk
  have hx : ∀ x : Fin k → ℝ, ∑ j, (Uᵀ *ᵥ x) j ^ 2 = ∑ v, x v ^ 2 := energy_gft ho
  have hcol : ∀ j0 : Fin k, (fun v => U v j0) ≠ 0 ∧
      ∑ j, (∑ i, y i j ^ 2) * (Uᵀ *ᵥ fun v => U v j0) j ^ 2 = (∑ i, y i j0 ^ 2) * ∑ v, U v j0 ^ 2 := by
    intro j0
    have h1 : ∀ j, (Uᵀ *ᵥ fun v => U v j0) j = if j = j0 then 1 else 0 := by
      intro j
      have := congrFun (congrFun ho j) j0
      rw [Matrix.mul_apply, Matrix.one_apply] at this
      exact this
    have h2 : ∑ v, U v j0 ^ 2 = 1 := by
      have := h1 j0
      simpa [Matrix.mulVec, dotProduct, pow_two] using this
    constructor
    · intro h0
      rw [show (∑ v, U v j0 ^ 2) = 0 from by
        refine Finset.sum_eq_zero fun v _ => ?_
        have := congrFun h0 v
        simp only [Pi.zero_apply] at this
        rw [this]; ring] at h2
      exact one_ne_zero h2.symm
    · simp only [h1]
      rw [h2]
      simp
  refine ⟨fun x => ⟨_, hfil x, ?_, ?_⟩, ?_, ?_⟩
  · rw [henergy, ← hx x, Finset.mul_sum]
    exact Finset.sum_le_sum fun j _ => mul_le_mul_of_nonneg_right (hle j).1 (sq_nonneg _)
  · rw [henergy, ← hx x, Finset.mul_sum]
    exact Finset.sum_le_sum fun j _ => mul_le_mul_of_nonneg_right (hle j).2 (sq_nonneg _)
  · obtain ⟨j0, hj0⟩ := hA
    exact ⟨_, (hcol j0).1, _, hfil _, by rw [henergy, (hcol j0).2, hj0]⟩
  · obtain ⟨j0, hj0⟩ := hB
    exact ⟨_, (hcol j0).1, _, hfil _, by rw [henergy, (hcol j0).2, hj0]⟩

end C30

/-- sum over the filters of `M_i (N_i x)` when `∑_i h_i h'_i = c` at every frequency -/
theorem sum_spectral {q : ℕ} {U : Matrix (Fin n) (Fin n) ℝ} (ho : Uᵀ * U = 1) (h h' : Fin q → Fin n → ℝ) (c : ℝ)
    (hc : ∀ j, ∑ i, h i j * h' i j = c) : ∑ i, spectralOp U (h i) * spectralOp U (h' i) = c • (1 : Matrix _ _ ℝ) := by
  simp only [spectralOp_mul ho]
  rw [← spectralOp_sum]
  rw [show (fun j => ∑ i, h i j * h' i j) = fun _ => c * 1 from by funext j; rw [hc]; ring, spectralOp_smul,
    spectralOp_one ho]

theorem of2_cast {m q q' : ℕ} (h : q' = q) (F : Fin m → Fin q → ℝ) :
    Arr.of2 F = Arr.of2 fun v (i : Fin q') => F v (i.cast h) := by subst h; rfl

/-- `h.synthesize(f.analyze(x))` when the products of the responses sum to `c`, `n_filters ≥ 2` -/
theorem synth_analyze {S : Solvers n} {s : GState n} {b : Basis n} (hb : (s.getBasis S).1 = .ok (some b))
    (ho : b.Uᵀ * b.U = 1) (hbk : b.k = n) (hn : n ≠ 1) (f h : Bank) (hf : f.Nf ≠ 1) (hfh : h.Nf = f.Nf)
    (y : Fin f.Nf → Fin b.k → ℝ) (hy : f.evaluate b.e = .ok y) (z : Fin h.Nf → Fin b.k → ℝ) (hz : h.evaluate b.e = .ok z)
    (c : ℝ) (hc : ∀ j, ∑ i, z (i.cast hfh.symm) j * y i j = c) (order : ℕ) (x : Fin n → ℝ) :
    ∃ A s', f.analyze S (Arr.of1 x) .exact order s = (.ok A, s') ∧
      (h.synthesize S A .exact order s').1 = .ok (Arr.of1 fun v => c * x v) := by
  have hst := getBasis_stored (getBasis_split hb)
  refine ⟨Arr.of2 fun v i => (spectralOp b.U (y i) *ᵥ x) v, (s.getBasis S).2, ?_, ?_⟩
  · have : f.analyze S (Arr.of1 x) .exact order s = f.filter S (Arr.of1 x) .exact order s := by
      unfold Bank.analyze; rw [if_neg (by simp [Arr.of1, Arr.ndim])]
    rw [this, Bank.filter_eq, parse_of1]
    simp only [Bank.ops_exact_intro order (getBasis_split hb) hbk hy]
    refine congrArg (fun t => (Except.ok t, (s.getBasis S).2)) ?_
    exact squeeze_21p hn hf _
  · have : h.synthesize S (Arr.of2 fun v i => (spectralOp b.U (y i) *ᵥ x) v) .exact order (s.getBasis S).2 =
        h.filter S (Arr.of2 fun v (i : Fin h.Nf) => (spectralOp b.U (y (i.cast hfh)) *ᵥ x) v) .exact order (s.getBasis S).2 := by
      have e : (Arr.of2 fun v i => (spectralOp b.U (y i) *ᵥ x) v) =
          Arr.of2 fun v (i : Fin h.Nf) => (spectralOp b.U (y (i.cast hfh)) *ᵥ x) v := by
        exact of2_cast hfh _
      rw [e]
      unfold Bank.synthesize; rw [if_neg (by simp [Arr.of2, Arr.ndim]), if_neg (by simp [Arr.of2, Arr.last])]
    rw [this, Bank.filter_eq, parse_of2_synthesis _ _ (by rw [hfh]; exact hf)]
    simp only [Bank.ops_exact_intro order hst.2 hbk hz]
    refine congrArg Except.ok ?_
    unfold Bank.act
    rw [squeeze_211 hn]
    refine congrArg Arr.of1 ?_
    funext v
    obtain ⟨k, e, U⟩ := b
    simp only at hbk ho hc y z
    subst hbk
    have hsum := sum_spectral ho (fun i => z (i.cast hfh.symm)) y c hc
    have := congrFun (congrArg (fun M : Matrix (Fin k) (Fin k) ℝ => M *ᵥ x) hsum) v
    simp only [Matrix.smul_mulVec, Matrix.one_mulVec, Pi.smul_apply, smul_eq_mul] at this
    rw [← this, Matrix.sum_mulVec, Finset.sum_apply]
    simp only [← Matrix.mulVec_mulVec]
    refine (Fintype.sum_equiv (finCongr hfh) _ _ fun i => ?_)
    rfl

theorem C31_tight_reconstruction {S : Solvers n} (hS : Sound S) {g : Graph n ℝ} (hg : g.Built) (hist : List (Op n))
    {s : GState n} (hs : s = runAll S hist (GState.ofGraph g)) (hn : n ≠ 1) (f : Bank) (hf : f.Nf ≠ 1) (b : Basis n)
    (hb : (s.getBasis S).1 = .ok (some b)) (hbk : b.k = n) (c : ℝ)
    (hc : (f.estimateFrameBounds S (some ⟨b.k, b.e⟩) s).1 = .ok (c, c)) (order : ℕ) (x : Fin n → ℝ) :
    ∃ A s', f.analyze S (Arr.of1 x) .exact order s = (.ok A, s') ∧
      (f.synthesize S A .exact order s').1 = .ok (Arr.of1 fun v => c * x v) := by
  obtain ⟨ho, -⟩ := readable_orthonormal hS hg hist hs hb
  obtain ⟨y, hy, hle, -, -⟩ := boundsAt_spec (f := f) (x := b.e) hc
  refine synth_analyze hb ho hbk hn f f hf rfl y hy y hy c (fun j => ?_) order x
  have := hle j
  simp only [Fin.cast_eq_self, ← pow_two]
  linarith [this.1, this.2]

/-- two single filters in a row -/
theorem filter_filter {S : Solvers n} {s : GState n} {b : Basis n} (hb : (s.getBasis S).1 = .ok (some b))
    (ho : b.Uᵀ * b.U = 1) (hbk : b.k = n) (hn : n ≠ 1) (f h : Bank) (hf : f.Nf = 1) (hh : h.Nf = f.Nf)
    (y : Fin f.Nf → Fin b.k → ℝ) (hy : f.evaluate b.e = .ok y) (z : Fin h.Nf → Fin b.k → ℝ) (hz : h.evaluate b.e = .ok z)
    (c : ℝ) (hc : ∀ j, ∑ i, z (i.cast hh.symm) j * y i j = c) (order : ℕ) (x : Fin n → ℝ) :
    ∃ A s', f.filter S (Arr.of1 x) .exact order s = (.ok A, s') ∧
      (h.filter S A .exact order s').1 = .ok (Arr.of1 fun v => c * x v) := by
  have hst := getBasis_stored (getBasis_split hb)
  have h0 : ∀ i : Fin f.Nf, i = ⟨0, by omega⟩ := fun i => Fin.ext (by have := i.2; omega)
  refine ⟨Arr.of1 fun v => (spectralOp b.U (y ⟨0, by omega⟩) *ᵥ x) v, (s.getBasis S).2, ?_, ?_⟩
  · rw [Bank.filter_eq, parse_of1]
    simp only [Bank.ops_exact_intro order (getBasis_split hb) hbk hy]
    refine congrArg (fun t => (Except.ok t, (s.getBasis S).2)) ?_
    exact (C28_shapes hn _).2.2.2 rfl hf
  · rw [Bank.filter_eq, parse_of1]
    simp only [Bank.ops_exact_intro order hst.2 hbk hz]
    refine congrArg Except.ok ?_
    refine ((C28_shapes hn _).2.2.2 rfl (by omega)).trans (congrArg Arr.of1 ?_)
    funext v
    obtain ⟨k, e, U⟩ := b
    simp only at hbk ho hc y z
    subst hbk
    have hsum := sum_spectral ho (fun i => z (i.cast hh.symm)) y c hc
    have := congrFun (congrArg (fun M : Matrix (Fin k) (Fin k) ℝ => M *ᵥ x) hsum) v
    simp only [Matrix.smul_mulVec, Matrix.one_mulVec, Pi.smul_apply, smul_eq_mul] at this
    rw [← this, Matrix.sum_mulVec, Finset.sum_apply]
    simp only [← Matrix.mulVec_mulVec]
    rw [Finset.sum_eq_single_of_mem ⟨0, by omega⟩ (Finset.mem_univ _) (fun i _ hi => absurd (h0 i) hi)]
    rfl

/-- With a single filter, filtering twice multiplies by the frame bound. -/
theorem C31_tight_single {S : Solvers n} (hS : Sound S) {g : Graph n ℝ} (hg : g.Built) (hist : List (Op n))
    {s : GState n} (hs : s = runAll S hist (GState.ofGraph g)) (hn : n ≠ 1) (f : Bank) (hf : f.Nf = 1) (b : Basis n)
    (hb : (s.getBasis S).1 = .ok (some b)) (hbk : b.k = n) (c : ℝ)
    (hc : (f.estimateFrameBounds S (some ⟨b.k, b.e⟩) s).1 = .ok (c, c)) (order : ℕ) (x : Fin n → ℝ) :
    ∃ A s', f.filter S (Arr.of1 x) .exact order s = (.ok A, s') ∧
      (f.filter S A .exact order s').1 = .ok (Arr.of1 fun v => c * x v) := by
  obtain ⟨ho, -⟩ := readable_orthonormal hS hg hist hs hb
  obtain ⟨y, hy, hle, -, -⟩ := boundsAt_spec (f := f) (x := b.e) hc
  refine filter_filter hb ho hbk hn f f hf rfl y hy y hy c (fun j => ?_) order x
  have := hle j
  simp only [Fin.cast_eq_self, ← pow_two]
  linarith [this.1, this.2]

/-- `synthesize` does not undo `analyze` when there is a single filter: the analysis has been squeezed to one
dimension, of size `n_vertices ≠ 1 = n_filters`, and `synthesize` raises ValueError. -/
theorem C31_single_synthesize_violated (S : Solvers n) (f : Bank) (hf : f.Nf = 1) (hn : n ≠ 1) (x : Fin n → ℝ)
    (method : FMethod) (order : ℕ) (s s' : GState n) (A : Arr)
    (hA : f.analyze S (Arr.of1 x) method order s = (.ok A, s')) :
    (f.synthesize S A method order s').1 = .error .valueError := by
  have h0 : f.analyze S (Arr.of1 x) method order s = f.filter S (Arr.of1 x) method order s := by
    unfold Bank.analyze; rw [if_neg (by simp [Arr.of1, Arr.ndim])]
  rw [h0, Bank.filter_eq, parse_of1] at hA
  simp only at hA
  rcases ho : f.ops S method order s with ⟨_ | M, s1⟩
  · simp [ho] at hA
  · simp only [ho, Prod.mk.injEq, Except.ok.injEq] at hA
    have h1 := (C28_shapes hn (fun v (j : Fin 1) i => (M i * Matrix.of fun v (_ : Fin 1) => x v) v j)).2.2.2 rfl hf
    have h2 : A = Arr.of1 _ := hA.1.symm.trans h1
    rw [h2]
    unfold Bank.synthesize
    rw [if_neg (by simp [Arr.of1, Arr.ndim]), if_pos (by simp [Arr.of1, Arr.last, hf, hn])]

/-! ## C32 -/

theorem seqFin_error {α : Type} : ∀ (m : ℕ) (F : Fin m → Py α) (e : PyErr),
    seqFin m F = .error e ↔ ∃ i, F i = .error e ∧ ∀ j < i, ∃ a, F j = .ok a
  | 0, F, e => by
    simp only [seqFin, reduceCtorEq, false_iff]
    rintro ⟨i, -⟩; exact i.elim0
  | m + 1, F, e => by
    unfold seqFin
    cases h0 : F 0 with
    | error e' =>
      simp only [Except.error.injEq]
      constructor
      · rintro rfl; exact ⟨0, h0, fun j hj => absurd hj (Fin.not_lt_zero j)⟩
      · rintro ⟨i, hi, hj⟩
        by_cases hi0 : i = 0
        · subst hi0; rw [h0] at hi; exact Except.error.inj hi
        · obtain ⟨a, ha⟩ := hj 0 (Fin.pos_of_ne_zero hi0)
          rw [h0] at ha; cases ha
    | ok a =>
      simp only
      have ih := seqFin_error m (fun i => F i.succ) e
      have : (∃ i, F i = .error e ∧ ∀ j < i, ∃ a, F j = .ok a) ↔
          ∃ i : Fin m, F i.succ = .error e ∧ ∀ j < i, ∃ a, F j.succ = .ok a := by
        constructor
        · rintro ⟨i, hi, hj⟩
          refine Fin.cases (fun hi _ => ?_) (fun i hi hj => ?_) i hi hj
          · rw [h0] at hi; cases hi
          · exact ⟨i, hi, fun j hji => hj j.succ (Fin.succ_lt_succ_iff.2 hji)⟩
        · rintro ⟨i, hi, hj⟩
          refine ⟨i.succ, hi, fun j => Fin.cases (fun _ => ⟨a, h0⟩) (fun j hji => hj j (Fin.succ_lt_succ_iff.1 hji)) j⟩
      rw [this, ← ih]
      cases seqFin m fun i => F i.succ <;> simp

/-- evaluating `f + g`: the rows of `f`, then the rows of `g`; the first exception wins -/
theorem Bank.Nf_add (f g : Bank) : (f.add g).Nf = f.Nf + g.Nf := by simp [Bank.add, Bank.ofArg, Bank.Nf]

theorem Bank.get_add_left (f g : Bank) (i : Fin f.Nf) :
    (f.add g).kernels.get ((Fin.castAdd g.Nf i).cast (Bank.Nf_add f g).symm) = f.kernels.get i := by
  simp only [Bank.add, Bank.ofArg, List.get_eq_getElem, Fin.val_cast, Fin.val_castAdd]
  exact List.getElem_append_left i.2

theorem Bank.get_add_right (f g : Bank) (i : Fin g.Nf) :
    (f.add g).kernels.get ((Fin.natAdd f.Nf i).cast (Bank.Nf_add f g).symm) = g.kernels.get i := by
  have h : ∀ (j : ℕ) (hj : j < (f.kernels ++ g.kernels).length), j = f.kernels.length + i.1 →
      (f.kernels ++ g.kernels)[j] = g.kernels.get i := by
    intro j hj hji
    subst hji
    rw [List.getElem_append_right (by omega)]
    simp
  exact h (f.Nf + i) _ rfl

theorem Bank.evaluate_add_ok (f g : Bank) {k : ℕ} (x : Fin k → ℝ) {y w} (hy : f.evaluate x = .ok y)
    (hw : g.evaluate x = .ok w) :
    (f.add g).evaluate x = .ok fun i => Fin.append y w (i.cast (Bank.Nf_add f g)) := by
  unfold Bank.evaluate at *
  rw [seqFin_ok] at *
  intro i
  have hi : i = (i.cast (Bank.Nf_add f g)).cast (Bank.Nf_add f g).symm := rfl
  rw [hi]
  generalize i.cast (Bank.Nf_add f g) = i'
  refine Fin.addCases (fun i => ?_) (fun i => ?_) i'
  · rw [Bank.get_add_left, hy i]; simp
  · rw [Bank.get_add_right, hw i]; simp

theorem Bank.evaluate_add_error_left (f g : Bank) {k : ℕ} (x : Fin k → ℝ) {e} (hy : f.evaluate x = .error e) :
    (f.add g).evaluate x = .error e := by
  unfold Bank.evaluate at *
  rw [seqFin_error] at *
  obtain ⟨i, hi, hj⟩ := hy
  refine ⟨(Fin.castAdd g.Nf i).cast (Bank.Nf_add f g).symm, by rw [Bank.get_add_left]; exact hi, fun j hji => ?_⟩
  have hj' : (j : ℕ) < i := by simpa [Fin.lt_def] using hji
  have h2 := hj ⟨j, by omega⟩ (Fin.lt_def.2 hj')
  have h3 := Bank.get_add_left f g ⟨j, by omega⟩
  have h4 : j = (Fin.castAdd g.Nf (⟨j, by omega⟩ : Fin f.Nf)).cast (Bank.Nf_add f g).symm := Fin.ext rfl
  rw [h4, h3]; exact h2

theorem Bank.evaluate_add_error_right (f g : Bank) {k : ℕ} (x : Fin k → ℝ) {y e} (hy : f.evaluate x = .ok y)
    (hw : g.evaluate x = .error e) : (f.add g).evaluate x = .error e := by
  unfold Bank.evaluate at *
  rw [seqFin_ok] at hy
  rw [seqFin_error] at *
  obtain ⟨i, hi, hj⟩ := hw
  refine ⟨(Fin.natAdd f.Nf i).cast (Bank.Nf_add f g).symm, by rw [Bank.get_add_right]; exact hi, fun j hji => ?_⟩
  have hj' : (j : ℕ) < f.Nf + i := by simpa [Fin.lt_def] using hji
  by_cases hjf : (j : ℕ) < f.Nf
  · have h4 : j = (Fin.castAdd g.Nf (⟨j, hjf⟩ : Fin f.Nf)).cast (Bank.Nf_add f g).symm := Fin.ext rfl
    rw [h4, Bank.get_add_left]; exact ⟨_, hy _⟩
  · have hlt : (j : ℕ) - f.Nf < g.Nf := by have := i.2; omega
    have h4 : j = (Fin.natAdd f.Nf (⟨j - f.Nf, hlt⟩ : Fin g.Nf)).cast (Bank.Nf_add f g).symm :=
      Fin.ext (by simp; omega)
    rw [h4, Bank.get_add_right]
    exact hj _ (Fin.lt_def.2 (by simp; omega))

/-- sum over the filters of `f + g` -/
theorem Bank.sum_add {β : Type} [AddCommMonoid β] (f g : Bank) (F : Fin (f.Nf + g.Nf) → β) :
    ∑ i : Fin (f.add g).Nf, F (i.cast (Bank.Nf_add f g)) = ∑ i, F (Fin.castAdd _ i) + ∑ i, F (Fin.natAdd _ i) := by
  rw [← Fin.sum_univ_add]
  exact Fintype.sum_equiv (finCongr (Bank.Nf_add f g)) _ _ fun i => rfl

/-- **`complement`.**  At any (non-empty) array of frequencies where the kernels of `f` do not raise, let `T` be the sum
of the squared responses.
* Without a bound, the sum of squares of `f + f.complement()` is the maximum of `T`, at every frequency.
* With a feasible bound `B` it is `B` at every frequency.
* With an infeasible bound, evaluation raises ValueError. -/
theorem C32_complement (f : Bank) {k : ℕ} (hk : 0 < k) (x : Fin k → ℝ) (y : Fin f.Nf → Fin k → ℝ)
    (hy : f.evaluate x = .ok y) :
    (∃ z, (f.add (f.complement none)).evaluate x = .ok z ∧
      ∃ j0, (∀ j, ∑ i, y i j ^ 2 ≤ ∑ i, y i j0 ^ 2) ∧ ∀ j, ∑ i, z i j ^ 2 = ∑ i, y i j0 ^ 2) ∧
    (∀ B, (∀ j, ∑ i, y i j ^ 2 ≤ B) →
      ∃ z, (f.add (f.complement (some B))).evaluate x = .ok z ∧ ∀ j, ∑ i, z i j ^ 2 = B) ∧
    (∀ B, (∃ j, B < ∑ i, y i j ^ 2) → (f.add (f.complement (some B))).evaluate x = .error .valueError) := by
  obtain ⟨j0, -, hj0⟩ := Finset.exists_mem_eq_sup' (⟨⟨0, hk⟩, Finset.mem_univ _⟩ : (Finset.univ : Finset (Fin k)).Nonempty)
    (fun j => ∑ i, y i j ^ 2)
  have hmax : arrMax (fun j => ∑ i, y i j ^ 2) = .ok (∑ i, y i j0 ^ 2) := by
    unfold arrMax; rw [dif_pos hk, hj0]
  have hle : ∀ j, ∑ i, y i j ^ 2 ≤ ∑ i, y i j0 ^ 2 := fun j => by
    rw [← hj0]; exact Finset.le_sup' (f := fun j => ∑ i, y i j ^ 2) (Finset.mem_univ j)
  have hev : ∀ B r, f.complementKernel B k x = r →
      (f.complement B).evaluate x = match r with | .error e => .error e | .ok a => .ok fun _ => a := by
    intro B r hr
    cases r with
    | error e =>
      simp only
      unfold Bank.evaluate
      rw [seqFin_error]
      exact ⟨⟨0, Nat.one_pos⟩, hr, fun j hj => absurd hj (by simp [Fin.lt_def])⟩
    | ok a =>
      simp only
      unfold Bank.evaluate
      rw [seqFin_ok]
      intro i
      have : i = ⟨0, Nat.one_pos⟩ := Fin.ext (by have := i.2; simp [Bank.complement, Bank.ofArg, Bank.Nf] at this; omega)
      rw [this]; exact hr
  have hss : f.sumSquares x = .ok fun j => ∑ i, y i j ^ 2 := by unfold Bank.sumSquares; rw [hy]
  have hsum : ∀ (B : Option ℝ) (c : ℝ) (hc : ∀ j, ∑ i, y i j ^ 2 ≤ c) (z : Fin (f.add (f.complement B)).Nf → Fin k → ℝ),
      z = (fun i : Fin (f.add (f.complement B)).Nf => Fin.append y (fun (_ : Fin (f.complement B).Nf) j => Real.sqrt (c - ∑ i, y i j ^ 2))
        (i.cast (Bank.Nf_add f (f.complement B)))) →
      ∀ j, ∑ i, z i j ^ 2 = c := by
    intro B c hc z hz j
    subst hz
    rw [Bank.sum_add f (f.complement B) (fun i => Fin.append y
      (fun (_ : Fin (f.complement B).Nf) j => Real.sqrt (c - ∑ i, y i j ^ 2)) i j ^ 2)]
    simp only [Fin.append_left, Fin.append_right]
    rw [Finset.sum_const, Finset.card_univ, Fintype.card_fin, show (f.complement B).Nf = 1 from rfl, one_smul,
      Real.sq_sqrt (by linarith [hc j])]
    ring
  refine ⟨?_, ?_, ?_⟩
  · have hK : f.complementKernel none k x = .ok fun j => Real.sqrt (∑ i, y i j0 ^ 2 - ∑ i, y i j ^ 2) := by
      unfold Bank.complementKernel; simp only [hss, hmax]
    refine ⟨_, Bank.evaluate_add_ok f _ x hy (hev none _ hK), j0, hle, ?_⟩
    exact hsum none _ hle _ rfl
  · intro B hB
    have hK : f.complementKernel (some B) k x = .ok fun j => Real.sqrt (B - ∑ i, y i j ^ 2) := by
      unfold Bank.complementKernel; simp only [hss, hmax]; rw [if_neg (not_lt.2 (hB j0))]
    refine ⟨_, Bank.evaluate_add_ok f _ x hy (hev _ _ hK), ?_⟩
    exact hsum (some B) _ hB _ rfl
  · rintro B ⟨j, hj⟩
    have hK : f.complementKernel (some B) k x = .error .valueError := by
      unfold Bank.complementKernel; simp only [hss, hmax]; rw [if_pos (lt_of_lt_of_le hj (hle j))]
    exact Bank.evaluate_add_error_right f _ x hy (hev _ _ hK)

/-! ## C33 -/

/-- the row vector used for `np.linalg.pinv` of a column satisfies the four Penrose equations -/
theorem pinvCol_penrose {m : ℕ} (y : Fin m → ℝ) :
    let Y : Matrix (Fin m) (Fin 1) ℝ := Matrix.of fun i _ => y i
    let P : Matrix (Fin 1) (Fin m) ℝ := Matrix.of fun _ i => Bank.pinvCol y i
    Y * P * Y = Y ∧ P * Y * P = P ∧ (Y * P)ᵀ = Y * P ∧ (P * Y)ᵀ = P * Y := by
  intro Y P
  have hPY : P * Y = Matrix.of fun _ _ => (∑ l, y l ^ 2) / ∑ l, y l ^ 2 := by
    ext a b
    simp only [P, Y, Matrix.mul_apply, Matrix.of_apply, Bank.pinvCol]
    rw [Finset.sum_div]
    refine Finset.sum_congr rfl fun i _ => ?_
    ring
  have hzero : (∑ l, y l ^ 2) = 0 → ∀ i, y i = 0 := by
    intro h i
    have := (Finset.sum_eq_zero_iff_of_nonneg (fun l _ => sq_nonneg (y l))).1 h i (Finset.mem_univ i)
    exact pow_eq_zero_iff (two_ne_zero) |>.1 this
  refine ⟨?_, ?_, ?_, ?_⟩
  · rw [Matrix.mul_assoc, hPY]
    ext i b
    simp only [Y, Matrix.mul_apply, Matrix.of_apply, Finset.univ_unique, Finset.sum_singleton]
    by_cases h : (∑ l, y l ^ 2) = 0
    · rw [hzero h i]; ring
    · rw [div_self h, mul_one]
  · rw [hPY]
    ext b i
    simp only [P, Matrix.mul_apply, Matrix.of_apply, Finset.univ_unique, Finset.sum_singleton, Bank.pinvCol]
    by_cases h : (∑ l, y l ^ 2) = 0
    · rw [hzero h i]; simp
    · rw [div_self h, one_mul]
  · ext i j
    simp only [Y, P, Matrix.transpose_apply, Matrix.mul_apply, Matrix.of_apply, Bank.pinvCol]
    refine Finset.sum_congr rfl fun _ _ => ?_
    ring
  · rw [hPY]; ext a b; simp

theorem inverse_Nf {S : Solvers n} {f h : Bank} {s0 s1 : GState n} (hinv : f.inverse S s0 = (.ok h, s1)) :
    h = ⟨List.ofFn f.inverseKernel⟩ := by
  unfold Bank.inverse at hinv
  split at hinv
  · simp at hinv
  · simp only [Prod.mk.injEq, Except.ok.injEq] at hinv
    exact hinv.1.symm

theorem inverse_evaluate (f : Bank) {k : ℕ} (x : Fin k → ℝ) {y} (hy : f.evaluate x = .ok y) :
    ∃ hN : (Bank.mk (List.ofFn f.inverseKernel)).Nf = f.Nf,
    (Bank.mk (List.ofFn f.inverseKernel)).evaluate x = .ok fun i j => y (i.cast hN) j / ∑ l, y l j ^ 2 := by
  refine ⟨by simp [Bank.Nf], ?_⟩
  unfold Bank.evaluate
  rw [seqFin_ok]
  intro i
  simp only [List.get_ofFn]
  unfold Bank.inverseKernel
  rw [hy]
  rfl

/-- **`inverse`.**  When the responses of `f` do not vanish simultaneously at an eigenvalue of the graph (positive lower
frame bound), `f.inverse().synthesize(f.analyze(x)) = x`, whatever the state of the graph when `inverse()` was
called. -/
theorem C33_inverse {S : Solvers n} (hS : Sound S) {g : Graph n ℝ} (hg : g.Built) (hist : List (Op n))
    {s : GState n} (hs : s = runAll S hist (GState.ofGraph g)) (hn : n ≠ 1) (f : Bank) (hf : f.Nf ≠ 1) (b : Basis n)
    (hb : (s.getBasis S).1 = .ok (some b)) (hbk : b.k = n) (A B : ℝ) (hA : 0 < A)
    (hAB : (f.estimateFrameBounds S (some ⟨b.k, b.e⟩) s).1 = .ok (A, B))
    (h : Bank) (s0 s1 : GState n) (hinv : f.inverse S s0 = (.ok h, s1)) (order : ℕ) (x : Fin n → ℝ) :
    ∃ a s', f.analyze S (Arr.of1 x) .exact order s = (.ok a, s') ∧
      (h.synthesize S a .exact order s').1 = .ok (Arr.of1 x) := by
  obtain ⟨ho, -⟩ := readable_orthonormal hS hg hist hs hb
  obtain ⟨y, hy, hle, -, -⟩ := boundsAt_spec (f := f) (x := b.e) hAB
  have := inverse_Nf hinv
  subst this
  obtain ⟨hN, hz⟩ := inverse_evaluate f b.e hy
  have := synth_analyze hb ho hbk hn f _ hf hN y hy _ hz 1 (fun j => by
    simp only [Fin.cast_cast, Fin.cast_eq_self]
    have hne : (∑ l, y l j ^ 2) ≠ 0 := ne_of_gt (lt_of_lt_of_le hA (hle j).1)
    calc ∑ i, y i j / (∑ l, y l j ^ 2) * y i j = (∑ i, y i j ^ 2) / ∑ l, y l j ^ 2 := by
          rw [Finset.sum_div]; exact Finset.sum_congr rfl fun i _ => by ring
      _ = 1 := div_self hne) order x
  simpa using this

/-- The same with a single filter, through `filter`. -/
theorem C33_inverse_single {S : Solvers n} (hS : Sound S) {g : Graph n ℝ} (hg : g.Built) (hist : List (Op n))
    {s : GState n} (hs : s = runAll S hist (GState.ofGraph g)) (hn : n ≠ 1) (f : Bank) (hf : f.Nf = 1) (b : Basis n)
    (hb : (s.getBasis S).1 = .ok (some b)) (hbk : b.k = n) (A B : ℝ) (hA : 0 < A)
    (hAB : (f.estimateFrameBounds S (some ⟨b.k, b.e⟩) s).1 = .ok (A, B))
    (h : Bank) (s0 s1 : GState n) (hinv : f.inverse S s0 = (.ok h, s1)) (order : ℕ) (x : Fin n → ℝ) :
    ∃ a s', f.filter S (Arr.of1 x) .exact order s = (.ok a, s') ∧
      (h.filter S a .exact order s').1 = .ok (Arr.of1 x) := by
  obtain ⟨ho, -⟩ := readable_orthonormal hS hg hist hs hb
  obtain ⟨y, hy, hle, -, -⟩ := boundsAt_spec (f := f) (x := b.e) hAB
  have := inverse_Nf hinv
  subst this
  obtain ⟨hN, hz⟩ := inverse_evaluate f b.e hy
  have := filter_filter hb ho hbk hn f _ hf hN y hy _ hz 1 (fun j => by
    simp only [Fin.cast_cast, Fin.cast_eq_self]
    have hne : (∑ l, y l j ^ 2) ≠ 0 := ne_of_gt (lt_of_lt_of_le hA (hle j).1)
    calc ∑ i, y i j / (∑ l, y l j ^ 2) * y i j = (∑ i, y i j ^ 2) / ∑ l, y l j ^ 2 := by
          rw [Finset.sum_div]; exact Finset.sum_congr rfl fun i _ => by ring
      _ = 1 := div_self hne) order x
  simpa using this

/-- A filter bank that is not a frame: at a frequency where all the responses vanish, so do those of the inverse
(the pseudo-inverse of the zero vector is zero). -/
theorem C33_pseudo (S : Solvers n) (f h : Bank) (s0 s1 : GState n) (hinv : f.inverse S s0 = (.ok h, s1)) {k : ℕ}
    (x : Fin k → ℝ) (y : Fin f.Nf → Fin k → ℝ) (hy : f.evaluate x = .ok y) :
    ∃ hN : h.Nf = f.Nf, ∃ z, h.evaluate x = .ok z ∧
      (∀ j, (∀ i, y i j = 0) → ∀ i, z i j = 0) ∧
      (∀ j, (∃ i, y i j ≠ 0) → ∑ i, z (i.cast hN.symm) j * y i j = 1) ∧
      ∀ j i l, z (i.cast hN.symm) j * y l j = z (l.cast hN.symm) j * y i j := by
  have := inverse_Nf hinv
  subst this
  obtain ⟨hN, hz⟩ := inverse_evaluate f x hy
  refine ⟨hN, _, hz, ?_, ?_, ?_⟩
  · intro j hj i; simp [hj]
  · rintro j ⟨i, hi⟩
    simp only [Fin.cast_cast, Fin.cast_eq_self]
    have hne : (∑ l, y l j ^ 2) ≠ 0 := by
      intro h0
      exact hi (pow_eq_zero_iff two_ne_zero |>.1
        ((Finset.sum_eq_zero_iff_of_nonneg (fun l _ => sq_nonneg (y l j))).1 h0 i (Finset.mem_univ i)))
    calc ∑ i, y i j / (∑ l, y l j ^ 2) * y i j = (∑ i, y i j ^ 2) / ∑ l, y l j ^ 2 := by
          rw [Finset.sum_div]; exact Finset.sum_congr rfl fun i _ => by ring
      _ = 1 := div_self hne
  · intro j i l
    simp only [Fin.cast_cast, Fin.cast_eq_self]
    ring

/-! ## C34 -/

section C34

variable {S : Solvers n} (f : Bank) (s : GState n) (b : Basis n) (hb : (s.getBasis S).1 = .ok (some b)) (hbk : b.k = n)
  (y : Fin f.Nf → Fin b.k → ℝ) (hy : f.evaluate b.e = .ok y) (order : ℕ)

include hb hbk hy

/-- `localize(i)`: `√N` times the `i`-th column of each `g(L)`. -/
theorem C34_localize (i : Fin n) : (f.localize S i .exact order s).1 =
    .ok ((Arr.of3 fun v (_ : Fin 1) l => Real.sqrt n * spectralOp b.U (y l) v i).squeeze) := by
  unfold Bank.localize
  have h := C28_one_signal S f s b hb hbk y hy order (fun j => if j = i then 1 else 0)
  rcases hf : f.filter S (Arr.of1 fun j => if j = i then 1 else 0) .exact order s with ⟨r, s'⟩
  rw [hf] at h
  simp only at h
  subst h
  simp only
  refine congrArg Except.ok ?_
  unfold Arr.smul Arr.squeeze
  simp only
  ext1
  · rfl
  · funext idx
    have e : ∀ l v, (spectralOp b.U (y l) *ᵥ fun j => if j = i then 1 else 0) v = spectralOp b.U (y l) v i := by
      intro l v; simp [Matrix.mulVec, dotProduct]
    simp only [e]
    have hval : ∀ (F : Fin n → Fin 1 → Fin f.Nf → ℝ) idx,
        Real.sqrt n * (Arr.of3 F).val idx = (Arr.of3 fun v j l => Real.sqrt n * F v j l).val idx := by
      intro F idx
      unfold Arr.of3
      simp only
      split
      · split <;> simp
      · simp
    exact hval _ _

end C34

theorem unravel3 {q m : ℕ} (hm : 0 < m) {i w c : ℕ} (hw : w < m) (hc : c < m) :
    Arr.unravel [q, m, m] ((i * m + w) * m + c) = [i, w, c] := by
  have e1 : ((i * m + w) * m + c) = (m * m) * i + (w * m + c) := by ring
  have hlt : w * m + c < m * m := by
    calc w * m + c < w * m + m := by omega
      _ = (w + 1) * m := by ring
      _ ≤ m * m := Nat.mul_le_mul_right m hw
  have e2 : ((i * m + w) * m + c) / (m * m) = i := by
    rw [e1, Nat.mul_add_div (by positivity), Nat.div_eq_of_lt hlt, Nat.add_zero]
  have e3 : ((i * m + w) * m + c) % (m * m) = w * m + c := by
    rw [e1, Nat.mul_add_mod, Nat.mod_eq_of_lt hlt]
  have e4 : (w * m + c) / m = w := by rw [mul_comm, Nat.mul_add_div hm, Nat.div_eq_of_lt hc, Nat.add_zero]
  have e5 : (w * m + c) % m = c := by rw [mul_comm, Nat.mul_add_mod, Nat.mod_eq_of_lt hc]
  simp [Arr.unravel, e2, e3, e4, e5]

/-- transposing and flattening a 3-D array -/
theorem frame_reshape {q : ℕ} (hn : 0 < n) (F : Fin n → Fin n → Fin q → ℝ) :
    (Arr.of3 F).transpose.reshapeRows n = .ok (Arr.of2 fun (r : Fin (q * n)) (v : Fin n) =>
      F v (finProdFinEquiv.symm r).2 (finProdFinEquiv.symm r).1) := by
  unfold Arr.reshapeRows
  have hp : (Arr.of3 F).transpose.shape = [q, n, n] := rfl
  rw [hp]
  have hprod : [q, n, n].prod = q * n * n := by simp [mul_assoc]
  rw [if_pos ⟨hn, by rw [hprod]; exact Dvd.intro_left _ rfl⟩]
  refine congrArg Except.ok ?_
  have hd : [q, n, n].prod / n = q * n := by rw [hprod]; exact Nat.mul_div_cancel _ hn
  ext1
  · show [[q, n, n].prod / n, n] = [q * n, n]
    rw [hd]
  · funext idx
    rw [hd]
    unfold Arr.of2
    simp only
    split
    · rename_i r c
      by_cases h : r < q * n ∧ c < n
      · rw [if_pos h, dif_pos h]
        obtain ⟨i, w, hr⟩ : ∃ i : Fin q, ∃ w : Fin n, r = i * n + w := by
          refine ⟨⟨r / n, (Nat.div_lt_iff_lt_mul hn).2 h.1⟩, ⟨r % n, Nat.mod_lt _ hn⟩, ?_⟩
          simp only; rw [mul_comm]; exact (Nat.div_add_mod r n).symm
        subst hr
        rw [unravel3 hn w.2 h.2]
        have e : (⟨i * n + w, h.1⟩ : Fin (q * n)) = finProdFinEquiv (i, w) := Fin.ext (by simp [finProdFinEquiv]; ring)
        rw [e, Equiv.symm_apply_apply]
        simp [Arr.transpose, Arr.of3, h.2]
      · rw [if_neg h, dif_neg h]
    · rfl

/-- the frame, from the operators of the filters -/
theorem frame_of_ops (hn : 2 ≤ n) {q : ℕ} (M : Fin q → Matrix (Fin n) (Fin n) ℝ) :
    (Bank.act M (.analysis n fun i j : Fin n => if i = j then (1 : ℝ) else 0)).squeeze.transpose.reshapeRows n =
      .ok (Arr.of2 fun (r : Fin (q * n)) (v : Fin n) => M (finProdFinEquiv.symm r).1 v (finProdFinEquiv.symm r).2) := by
  have e : ∀ (v j : Fin n) i, (M i * Matrix.of fun i j : Fin n => if i = j then (1 : ℝ) else 0) v j = M i v j := by
    intro v j i; simp [Matrix.mul_apply]
  unfold Bank.act
  simp only [e]
  by_cases h1 : q = 1
  · have hs1 := (C28_shapes (by omega : n ≠ 1) (fun v (j : Fin n) i => M i v j)).2.1 (by omega) h1
    rw [hs1]
    have h2 := frame_reshape (n := n) (q := 1) (by omega) (fun v j (_ : Fin 1) => M ⟨0, by omega⟩ v j)
    have h3 : ((Arr.of2 fun v j => M ⟨0, by omega⟩ v j).transpose.reshapeRows n) =
        ((Arr.of3 fun v j (_ : Fin 1) => M ⟨0, by omega⟩ v j).transpose.reshapeRows n) := by
      unfold Arr.reshapeRows
      have p1 : (Arr.of2 fun v j => M ⟨0, by omega⟩ v j).transpose.shape = [n, n] := rfl
      have p2 : (Arr.of3 fun v j (_ : Fin 1) => M ⟨0, by omega⟩ v j).transpose.shape = [1, n, n] := rfl
      rw [p1, p2]
      have p3 : [1, n, n].prod = [n, n].prod := by simp
      rw [p3]
      split
      · refine congrArg Except.ok ?_
        ext1
        · rfl
        · funext idx
          simp only
          split
          · rename_i i j
            split
            · rename_i hij
              have q2 : [n, n].prod / n = n := by simp; exact Nat.mul_div_cancel _ (by omega)
              rw [q2] at hij
              have u3 := unravel3 (q := 1) (m := n) (by omega) (i := 0) hij.1 hij.2
              simp only [Nat.zero_mul, Nat.zero_add] at u3
              have u2 : Arr.unravel [n, n] (i * n + j) = [i, j] := by
                have e4 : (i * n + j) / n = i := by
                  rw [mul_comm, Nat.mul_add_div (by omega), Nat.div_eq_of_lt hij.2, Nat.add_zero]
                have e5 : (i * n + j) % n = j := by rw [mul_comm, Nat.mul_add_mod, Nat.mod_eq_of_lt hij.2]
                simp [Arr.unravel, e4, e5]
              rw [u3, u2]
              simp [Arr.transpose, Arr.of2, Arr.of3]
            · rfl
          · rfl
      · rfl
    rw [h3, h2]
    refine congrArg Except.ok ?_
    have hcast : ∀ (q : ℕ) (hq : q = 1) (M : Fin q → Matrix (Fin n) (Fin n) ℝ),
        (Arr.of2 fun (r : Fin (1 * n)) v => M ⟨0, by omega⟩ v (finProdFinEquiv.symm r).2) =
        Arr.of2 fun (r : Fin (q * n)) v => M (finProdFinEquiv.symm r).1 v (finProdFinEquiv.symm r).2 := by
      intro q hq M
      subst hq
      refine congrArg Arr.of2 ?_
      funext r v
      rw [show (finProdFinEquiv.symm r).1 = (⟨0, by omega⟩ : Fin 1) from Subsingleton.elim _ _]
    exact hcast q h1 M
  · rw [(C28_shapes (by omega : n ≠ 1) (fun v (j : Fin n) i => M i v j)).1 (by omega) h1]
    exact frame_reshape (by omega) (fun v j i => M i v j)

section C34'

variable {S : Solvers n} (hS : Sound S) {g : Graph n ℝ} (hg : g.Built) (hist : List (Op n)) {s : GState n}
  (hs : s = runAll S hist (GState.ofGraph g))

include hS hg hs

/-- `compute_frame()` when `n_filters` is not `n_vertices` (two vertices or more), for both methods: the
`(n_filters · N) × N` matrix whose product with any signal is the analysis of that signal, stacked filter after
filter: row `i N + w` times `x` is output `i` of `analyze(x)` at vertex `w`. -/
theorem C34_frame (hn : 2 ≤ n) (f : Bank) (hf : f.Nf ≠ n) (method : FMethod) (order : ℕ) (A : Arr)
    (hA : (f.computeFrame S method order s).1 = .ok A) :
    ∃ F : Fin (f.Nf * n) → Fin n → ℝ, A = Arr.of2 F ∧ ∀ x : Fin n → ℝ,
      (f.filter S (Arr.of1 x) method order s).1 =
        .ok (Arr.of3 fun w (_ : Fin 1) i => ∑ v, F (finProdFinEquiv (i, w)) v * x v).squeeze := by
  obtain ⟨hi, -, -⟩ := reach_inv hS hg hist
  rw [← hs] at hi
  unfold Bank.computeFrame at hA
  rw [Bank.filter_eq, parse_of2_analysis _ _ (.inr (Ne.symm hf))] at hA
  simp only at hA
  rcases ho : f.ops S method order s with ⟨_ | M, s'⟩
  · simp [ho] at hA
  · simp only [ho] at hA
    have hM : ∀ i v w, M i v w = M i w v := fun i v w => by
      have := congrFun (congrFun (Bank.ops_symm hi ho i) w) v
      simpa using this
    have hsq := frame_of_ops hn M
    rw [hsq] at hA
    refine ⟨_, (Except.ok.inj hA).symm, fun x => ?_⟩
    rw [Bank.filter_eq, parse_of1]
    simp only [ho]
    refine congrArg (fun z => Except.ok (Arr.of3 z).squeeze) ?_
    funext w j i
    simp only [Equiv.symm_apply_apply, Matrix.mul_apply, Matrix.of_apply]
    exact Finset.sum_congr rfl fun v _ => by rw [hM]

/-- When there are as many filters as vertices (two or more), the identity matrix given to `filter` is taken for one
signal with `n_filters` features: `compute_frame()` returns a `1 × N` array. -/
theorem C34_frame_violated (hn : 2 ≤ n) (f : Bank) (hf : f.Nf = n) (method : FMethod) (order : ℕ) (A : Arr)
    (hA : (f.computeFrame S method order s).1 = .ok A) : A.shape = [1, n] := by
  unfold Bank.computeFrame at hA
  have hcast : (Arr.of2 fun i j : Fin n => if i = j then (1 : ℝ) else 0) =
      Arr.of2 fun (i : Fin n) (j : Fin f.Nf) => if i = j.cast hf then (1 : ℝ) else 0 := of2_cast hf _
  rw [hcast, Bank.filter_eq, parse_of2_synthesis _ _ (by omega)] at hA
  simp only at hA
  rcases ho : f.ops S method order s with ⟨_ | M, s'⟩
  · simp [ho] at hA
  · simp only [ho] at hA
    unfold Bank.act at hA
    rw [squeeze_211 (by omega)] at hA
    unfold Arr.reshapeRows at hA
    split at hA
    · rw [← Except.ok.inj hA]
      simp only [Arr.transpose, Arr.of1, List.reverse_singleton, List.prod_singleton]
      rw [Nat.div_self (by omega)]
    · simp at hA

end C34'

end PyGSP
