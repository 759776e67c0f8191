import Verif.Props.State
import Verif.Model.Fourier
import Verif.Lemmas.Kernel

/-!
# C24 - C27: the graph Fourier transform
-/

namespace PyGSP

open Matrix Spec

variable {n : ℕ}

section reach
open GState

variable {S : Solvers n} (hS : Sound S) {g : Graph n ℝ} (hg : g.Built) (ops : List (Op n)) {s : GState n}
  (hs : s = runAll S ops (GState.ofGraph g))

include hS hg hs

/-- after any history the columns of a readable basis are orthonormal, whatever the signs of the weights -/
theorem GState.readable_orthonormal {b : Basis n} (hb : (s.getBasis S).1 = .ok (some b)) :
    b.Uᵀ * b.U = 1 ∧ (s.getBasis S).2.basis = some b := by
  obtain ⟨hi, -, -⟩ := reach_inv hS hg ops
  rw [← hs] at hi
  have hi' := getBasis_inv hS hi
  have h2 : (s.getBasis S).2.basis = some b := by
    unfold getBasis at hb ⊢
    split at hb
    · rename_i b' hb'
      simp only [Except.ok.injEq, Option.some.injEq] at hb
      subst hb; exact hb'
    · simp only at hb ⊢
      split at hb
      · simp at hb
      · simpa using hb
  obtain ⟨e0, h1, -⟩ := hi'.basis b h2
  exact ⟨h1.orthonormal, h2⟩

end reach

/-! ## C24 -/

section C24
open GState

variable {S : Solvers n} (hS : Sound S) {g : Graph n ℝ} (hg : g.Built) (ops : List (Op n)) {s : GState n}
  (hs : s = runAll S ops (GState.ofGraph g)) {R : Type} [AddCommGroup R] [Module ℝ R]

include hS hg hs

omit hS hg hs in
theorem GState.getBasis_again {b : Basis n} {s : GState n} (h : s.basis = some b) : s.getBasis S = (.ok (some b), s) := by
  unfold getBasis; rw [h]

/-- With a complete basis, `igft(gft(x)) = x` for every signal of length `N` (of any trailing shape), after any
history. -/
theorem C24_igft_gft (b : Basis n) (hb : (s.getBasis S).1 = .ok (some b)) (hbk : b.k = n) (x : Fin n → R) :
    ∃ y s', s.gft S ⟨n, x⟩ = (.ok y, s') ∧ y.len = n ∧ (s'.igft S y).1 = .ok ⟨n, x⟩ := by
  obtain ⟨ho, h2⟩ := readable_orthonormal hS hg ops hs hb
  have hsplit : s.getBasis S = (.ok (some b), (s.getBasis S).2) := by rw [← hb]
  obtain ⟨k, e, U⟩ := b
  simp only at hbk
  subst hbk
  refine ⟨⟨k, fun j => ∑ i, U i j • x i⟩, (s.getBasis S).2, ?_, rfl, ?_⟩
  · unfold gft checkSignal
    rw [dif_pos rfl]
    simp only
    rw [hsplit]
    rfl
  · unfold igft checkSignal
    rw [dif_pos rfl]
    simp only
    rw [getBasis_again h2]
    simp only [dite_true]
    refine congrArg Except.ok (congrArg (Rows.mk k) ?_)
    funext i
    have hUU : U * Uᵀ = 1 := mul_eq_one_comm.1 ho
    calc ∑ j, U i j • ∑ i', U i' j • x i' = ∑ i', (∑ j, U i j * U i' j) • x i' := by
          simp only [Finset.smul_sum, Finset.sum_smul, smul_smul]
          exact Finset.sum_comm
      _ = ∑ i', ((1 : Matrix (Fin k) (Fin k) ℝ) i i') • x i' := by
          refine Finset.sum_congr rfl fun i' _ => ?_
          rw [← hUU, Matrix.mul_apply]; rfl
      _ = x i := by simp [Matrix.one_apply]

/-- With a complete basis, `gft(igft(y)) = y`. -/
theorem C24_gft_igft (b : Basis n) (hb : (s.getBasis S).1 = .ok (some b)) (hbk : b.k = n) (y : Fin n → R) :
    ∃ x s', s.igft S ⟨n, y⟩ = (.ok x, s') ∧ x.len = n ∧ (s'.gft S x).1 = .ok ⟨n, y⟩ := by
  obtain ⟨ho, h2⟩ := readable_orthonormal hS hg ops hs hb
  have hsplit : s.getBasis S = (.ok (some b), (s.getBasis S).2) := by rw [← hb]
  obtain ⟨k, e, U⟩ := b
  simp only at hbk
  subst hbk
  refine ⟨⟨k, fun i => ∑ j, U i j • y j⟩, (s.getBasis S).2, ?_, rfl, ?_⟩
  · unfold igft checkSignal
    rw [dif_pos rfl]
    simp only
    rw [hsplit]
    simp only [dite_true]
    rfl
  · unfold gft checkSignal
    rw [dif_pos rfl]
    simp only
    rw [getBasis_again h2]
    refine congrArg Except.ok (congrArg (Rows.mk k) ?_)
    funext j
    calc ∑ i, U i j • ∑ j', U i j' • y j' = ∑ j', (∑ i, U i j * U i j') • y j' := by
          simp only [Finset.smul_sum, Finset.sum_smul, smul_smul]
          exact Finset.sum_comm
      _ = ∑ j', ((1 : Matrix (Fin k) (Fin k) ℝ) j j') • y j' := by
          refine Finset.sum_congr rfl fun i' _ => ?_
          rw [← ho, Matrix.mul_apply]; rfl
      _ = y j := by simp [Matrix.one_apply]

/-- Parseval: inner products (so energies) are preserved, for real signals. -/
theorem C24_parseval (b : Basis n) (hb : (s.getBasis S).1 = .ok (some b)) (hbk : b.k = n) (x x' : Fin n → ℝ)
    (y y' : Rows ℝ) (hy : (s.gft S ⟨n, x⟩).1 = .ok y) (hy' : (s.gft S ⟨n, x'⟩).1 = .ok y') :
    ∃ h : y'.len = y.len, ∑ j, y.row j * y'.row (j.cast h.symm) = ∑ i, x i * x' i := by
  obtain ⟨ho, h2⟩ := readable_orthonormal hS hg ops hs hb
  have hsplit : s.getBasis S = (.ok (some b), (s.getBasis S).2) := by rw [← hb]
  have key : ∀ (x : Fin n → ℝ) (y : Rows ℝ), (s.gft S ⟨n, x⟩).1 = .ok y →
      y = ⟨b.k, fun j => ∑ i, b.U i j • x i⟩ := by
    intro x y hy
    unfold gft checkSignal at hy
    rw [dif_pos rfl] at hy
    simp only at hy
    rw [hsplit] at hy
    exact (Except.ok.inj hy).symm
  rw [key x y hy, key x' y' hy']
  refine ⟨rfl, ?_⟩
  obtain ⟨k, e, U⟩ := b
  simp only at hbk
  subst hbk
  simp only [Fin.cast_eq_self, smul_eq_mul]
  have hUU : U * Uᵀ = 1 := mul_eq_one_comm.1 ho
  calc ∑ j, (∑ i, U i j * x i) * ∑ i, U i j * x' i = (Uᵀ *ᵥ x) ⬝ᵥ (Uᵀ *ᵥ x') := rfl
    _ = x ⬝ᵥ x' := by
        rw [Matrix.dotProduct_mulVec, Matrix.vecMul_transpose, Matrix.mulVec_mulVec, hUU, Matrix.one_mulVec]

/-- With a *partial* basis (after `compute_fourier_basis(n_eigenvectors=k)` with `k < N`), `igft` raises ValueError on
every signal: on the `k` coefficients returned by `gft` because of the length check, and on `N` coefficients because
the shapes do not match. -/
theorem C24_partial_basis_violated (b : Basis n) (hb : (s.getBasis S).1 = .ok (some b)) (hbk : b.k < n)
    (y : Rows R) : (s.igft S y).1 = .error .valueError := by
  have hsplit : s.getBasis S = (.ok (some b), (s.getBasis S).2) := by rw [← hb]
  unfold igft checkSignal
  by_cases h : y.len = n
  · rw [dif_pos h]
    simp only
    rw [hsplit]
    simp only
    rw [dif_neg (by omega)]
  · rw [dif_neg h]

end C24

/-- signals of the wrong length raise ValueError and compute nothing -/
theorem C24_length_check {R : Type} [AddCommGroup R] [Module ℝ R] (S : Solvers n) (s : GState n) (x : Rows R)
    (h : x.len ≠ n) : s.gft S x = (.error .valueError, s) ∧ s.igft S x = (.error .valueError, s) := by
  unfold GState.gft GState.igft checkSignal
  rw [dif_neg h]
  exact ⟨rfl, rfl⟩

/-- the hypotheses of C24 are met on a graph with two vertices, and a partial basis exists too -/
example : ∃ g : Graph 2 ℝ, g.Built ∧ ∃ S : Solvers 2, Sound S ∧
    (∃ b, ((GState.ofGraph g).getBasis S).1 = .ok (some b) ∧ b.k = 2) ∧
    ∃ b, ((runAll S [.computeFourierBasis (some 1)] (GState.ofGraph g)).getBasis S).1 = .ok (some b) ∧ b.k = 1 := by
  obtain ⟨g, hg, hd, -⟩ := Graph.exists_built (K := ℝ) !![0, 1; 1, 0]
  have hW : NonnegW g.W.dense := by rw [hd]; intro i j; fin_cases i <;> fin_cases j <;> simp
  obtain ⟨S, hS, -, hc⟩ := exists_sound 2
  have h0 := GState.ofGraph_inv (S := S) g hg
  have hW0 : NonnegW (GState.ofGraph g).W.dense := by unfold GState.W; rw [h0.2.1]; exact hW
  have hk0 : GState.Known (GState.ofGraph g).lapType := by rw [h0.2.2.1]; exact hg.lapType_known
  have hnb : ∀ k, (GState.ofGraph g).hasBasis k = false := by intro k; simp [GState.hasBasis, h0.2.2.2.2.2]
  refine ⟨g, hg, S, hS, ?_, ?_⟩
  · obtain ⟨h1, b, h2, h3, -⟩ := GState.computeFourierBasis_ok hS h0.1 hW0 (by norm_num) hk0 none ⟨by simp, by simp⟩
      (.inl rfl) (hnb _)
    refine ⟨b, ?_, h3⟩
    unfold GState.getBasis
    rw [h0.2.2.2.2.2]
    simp only
    rw [h1]
    exact congrArg Except.ok h2
  · obtain ⟨h1, b, h2, h3, -⟩ := GState.computeFourierBasis_ok hS h0.1 hW0 (by norm_num) hk0 (some 1)
      ⟨by simp, by simp⟩ (.inr fun t L => hc _ _ _) (hnb _)
    refine ⟨b, ?_, h3⟩
    show (GState.getBasis S ((GState.ofGraph g).computeFourierBasis S (some 1)).2).1 = _
    rw [GState.getBasis_again h2]

/-! ## C25 -/

open GState in
/-- `compute_fourier_basis(n_eigenvectors)` on non-negative weights, after any history: no internal assertion fires,
and the stored pairs are exact: orthonormal eigenvectors, ascending eigenvalues starting at 0, at most 2 when
normalized; with all `N` eigenvectors, `L = U diag(e) Uᵀ`. -/
theorem C25_fourier_basis {S : Solvers n} (hS : Sound S) {g : Graph n ℝ} (hg : g.Built) (hW : NonnegW g.W.dense)
    (ops : List (Op n)) {s : GState n} (hs : s = runAll S ops (GState.ofGraph g))
    (hk : Known s.lapType) (k : Option ℕ) (hk1 : 0 < k.getD n) (hk2 : k.getD n ≤ n)
    (hconv : k.getD n = n ∨ ∀ t L, (S.eigshSM (k.getD n) t L).isSome) :
    (s.computeFourierBasis S k).1 = .ok () ∧
    ∃ b, (s.computeFourierBasis S k).2.basis = some b ∧ k.getD n ≤ b.k ∧ b.k ≤ n ∧
      b.Uᵀ * b.U = 1 ∧ s.L * b.U = b.U * Matrix.diagonal b.e ∧
      Monotone b.e ∧ (∀ h : 0 < b.k, b.e ⟨0, h⟩ = 0) ∧ (∀ j, 0 ≤ b.e j) ∧
      (s.lapType = .normalized → ∀ j, b.e j ≤ 2) ∧
      (b.k = n → s.L = b.U * Matrix.diagonal b.e * b.Uᵀ) := by
  obtain ⟨hi, hWs, -⟩ := reach_inv hS hg ops
  rw [← hs] at hi hWs
  have hWs' : NonnegW s.W.dense := by rw [hWs]; exact hW
  have hmain : (s.computeFourierBasis S k).1 = .ok () ∧ ∃ b, (s.computeFourierBasis S k).2.basis = some b ∧
      k.getD n ≤ b.k := by
    cases hb : s.hasBasis (k.getD n) with
    | true =>
      unfold hasBasis at hb
      split at hb
      · rename_i b hb'
        rw [C20_cached S s b hb' k (by simpa using hb)]
        exact ⟨rfl, b, hb', by simpa using hb⟩
      · simp at hb
    | false =>
      obtain ⟨h1, b, h2, h3, -⟩ := computeFourierBasis_ok hS hi hWs' (by omega) hk k ⟨hk1, hk2⟩ hconv hb
      exact ⟨h1, b, h2, h3.ge⟩
  obtain ⟨h1, b, h2, h3⟩ := hmain
  have hi' := computeFourierBasis_inv hS hi k
  have hb' := hi'.basis b h2
  rw [computeFourierBasis_L] at hb'
  obtain ⟨h4, h5, h6, h7⟩ := hb'.exact (hi.psd hWs') (hi.zero hWs')
  refine ⟨h1, b, h2, h3, ?_, h4.orthonormal, h4.eig, h5, h7, h6, ?_, ?_⟩
  · -- orthonormal columns are independent
    have hr : (b.Uᵀ * b.U).rank = b.k := by rw [h4.orthonormal, Matrix.rank_one, Fintype.card_fin]
    have h8 := Matrix.rank_mul_le_right b.Uᵀ b.U
    have h9 := Matrix.rank_le_card_height b.U
    rw [Fintype.card_fin] at h9
    omega
  · intro hl j
    have hlap := (C18_laplacian hS hg ops hs).2 hk
    rw [hl] at hlap
    obtain ⟨L, e1, -, -, -, -, e2⟩ := C12_normalized g.W hW
    rw [hlap] at e1
    have := Except.ok.inj e1
    exact (e2 _ (this ▸ h4.isEigenvalue j)).2
  · intro hbn
    obtain ⟨kk, e, U⟩ := b
    simp only at hbn
    subst hbn
    have hUU : U * Uᵀ = 1 := mul_eq_one_comm.1 h4.orthonormal
    rw [← h4.eig, Matrix.mul_assoc, hUU, Matrix.mul_one]

/-! ## C26 -/

open GState in
/-- The coherence, when it can be read, lies between `1/√N` and 1 — after any history, whatever the weights. -/
theorem C26_coherence {S : Solvers n} (hS : Sound S) {g : Graph n ℝ} (hg : g.Built)
    (ops : List (Op n)) {s : GState n} (hs : s = runAll S ops (GState.ofGraph g)) (c : ℝ)
    (hc : (s.getCoherence S).1 = .ok (some c)) : 1 / Real.sqrt n ≤ c ∧ c ≤ 1 := by
  obtain ⟨b, h1, h2, h3, h4, i0, j0, h5⟩ := C18_coherence hS hg ops hs c hc
  obtain ⟨hi, -, -⟩ := reach_inv hS hg ops
  rw [← hs] at hi
  obtain ⟨e0, hE, -⟩ := (getCoherence_inv hS hi).basis b h1
  have hcol : ∀ j, ∑ i, b.U i j ^ 2 = 1 := fun j => by
    have := congrFun (congrFun hE.orthonormal j) j
    rw [Matrix.mul_apply, Matrix.one_apply_eq] at this
    rw [← this]
    exact Finset.sum_congr rfl fun i _ => by rw [Matrix.transpose_apply]; ring
  have hc0 : 0 ≤ c := by rw [← h5]; exact abs_nonneg _
  have hn : 0 < n := Fin.pos i0
  have hnR : (0 : ℝ) < n := by exact_mod_cast hn
  constructor
  · have h6 : 1 ≤ n * c ^ 2 := by
      have := hcol j0
      calc (1 : ℝ) = ∑ i, b.U i j0 ^ 2 := (hcol j0).symm
        _ ≤ ∑ _i : Fin n, c ^ 2 := Finset.sum_le_sum fun i _ => by
            rw [← sq_abs]; exact pow_le_pow_left₀ (abs_nonneg _) (h4 i j0) 2
        _ = n * c ^ 2 := by simp
    rw [div_le_iff₀ (Real.sqrt_pos.2 hnR)]
    have h7 : (c * Real.sqrt n) ^ 2 = n * c ^ 2 := by rw [mul_pow, Real.sq_sqrt hnR.le]; ring
    by_contra hlt
    push Not at hlt
    have h8 : 0 ≤ c * Real.sqrt n := mul_nonneg hc0 (Real.sqrt_nonneg _)
    nlinarith
  · have h6 : c ^ 2 ≤ 1 := by
      rw [← h5, sq_abs, ← hcol j0]
      exact Finset.single_le_sum (f := fun i => b.U i j0 ^ 2) (fun i _ => sq_nonneg _) (Finset.mem_univ i0)
    nlinarith

/-- The coherence of a non-empty graph with non-negative weights can always be read. -/
theorem C26_readable {S : Solvers n} (hS : Sound S) {g : Graph n ℝ} (hg : g.Built) (hW : NonnegW g.W.dense)
    (hn : 0 < n) : ∃ c, ((GState.ofGraph g).getCoherence S).1 = .ok (some c) := by
  have h0 := GState.ofGraph_inv (S := S) g hg
  have hW0 : NonnegW (GState.ofGraph g).W.dense := by unfold GState.W; rw [h0.2.1]; exact hW
  have hk0 : GState.Known (GState.ofGraph g).lapType := by rw [h0.2.2.1]; exact hg.lapType_known
  obtain ⟨h1, b, h2, h3, -, -, -, h4⟩ := GState.computeFourierBasis_ok hS h0.1 hW0 hn hk0 none ⟨by simpa using hn, by simp⟩
      (.inl rfl) (by simp [GState.hasBasis, h0.2.2.2.2.2])
  obtain ⟨c, hc⟩ := Option.isSome_iff_exists.1 (h4 rfl).choose_spec.2.2
  unfold GState.getCoherence
  split
  · exact ⟨_, rfl⟩
  · simp only
    rw [h1]
    exact ⟨c, congrArg Except.ok hc⟩

/-! ## C27 -/

/-- `L x = 0` iff `x` is constant on every connected component (combinatorial Laplacian, non-negative weights;
for a directed graph the components ignore orientation). -/
theorem C27_kernel (W : Sp n n ℝ) (hW : NonnegW W.dense) : ∃ L, laplacian W .combinatorial = .ok L ∧
    ∀ x : Fin n → ℝ, L *ᵥ x = 0 ↔ ∀ i j, Relation.EqvGen (Arc W.dense) i j → x i = x j := by
  refine ⟨_, laplacian_comb W, fun x => ?_⟩
  rw [laplacian_ker hW (laplacian_comb W)]
  simp only [kscale, reduceCtorEq, false_and, if_false, one_mul]
  constructor
  · intro h i j hij
    induction hij with
    | rel i j h' => exact h i j h'
    | refl i => rfl
    | symm i j _ ih => exact ih.symm
    | trans i j k _ _ ih1 ih2 => exact ih1.trans ih2
  · intro h i j hij
    exact h i j (.rel _ _ hij)

/-- The number of zero eigenvalues in a complete basis is the number of connected components, for both Laplacian
types. (`Quot (Arc W)` is the set of classes of the equivalence relation generated by the arcs.) -/
theorem C27_zero_eigenvalues {S : Solvers n} (hS : Sound S) {g : Graph n ℝ} (hg : g.Built) (hW : NonnegW g.W.dense)
    (ops : List (Op n)) {s : GState n} (hs : s = runAll S ops (GState.ofGraph g)) (hn : 0 < n)
    (hk : GState.Known s.lapType) (b : Basis n) (hb : (s.getBasis S).1 = .ok (some b)) (hbk : b.k = n) :
    (Finset.univ.filter fun j => b.e j = 0).card = Nat.card (Quot (Arc g.W.dense)) := by
  obtain ⟨b', h1, h2, -⟩ := C18_fourier hS hg ops hs hW hn hk
  rw [hb] at h1
  cases h1
  have hl := (C18_laplacian hS hg ops hs).2 hk
  obtain ⟨k, e, U⟩ := b
  simp only at hbk
  subst hbk
  exact card_zero_eig hW hl h2

/-- An undirected graph is connected iff the second smallest eigenvalue is positive. -/
theorem C27_connected_iff {S : Solvers n} (hS : Sound S) {g : Graph n ℝ} (hg : g.Built) (hW : NonnegW g.W.dense)
    (hu : Undirected g.W.dense)
    (ops : List (Op n)) {s : GState n} (hs : s = runAll S ops (GState.ofGraph g)) (hn : 1 < n)
    (hk : GState.Known s.lapType) (b : Basis n) (hb : (s.getBasis S).1 = .ok (some b)) (hbk : b.k = n)
    (pop : Pop n) :
    ∃ c, (s.isConnected pop).1 = .ok c ∧ (c = true ↔ 0 < b.e ⟨1, by omega⟩) := by
  obtain ⟨c, h1, h2⟩ := C18_connected hS hg ops hs (by omega) pop
  refine ⟨c, h1, h2.trans ?_⟩
  have hcard := C27_zero_eigenvalues hS hg hW ops hs (by omega) hk b hb hbk
  obtain ⟨b', h3, h4, h5⟩ := C18_fourier hS hg ops hs hW (by omega) hk
  rw [hb] at h3
  cases h3
  obtain ⟨hi, hWs, -⟩ := GState.reach_inv hS hg ops
  rw [← hs] at hi hWs
  have hpsd : PSD s.L := hi.psd (by rw [hWs]; exact hW)
  have hzero : IsEigenvalue s.L 0 := hi.zero (by rw [hWs]; exact hW) (by omega)
  obtain ⟨k, e, U⟩ := b
  simp only at hbk
  subst hbk
  have hnn : ∀ j, 0 ≤ e j := fun j => eig_nonneg hpsd (h4.isEigenvalue j)
  have he0 : e ⟨0, by omega⟩ = 0 := by
    obtain ⟨j, hj⟩ := h4.complete hi.L_symm hzero
    have := h5 (show (⟨0, by omega⟩ : Fin k) ≤ j from Fin.mk_le_of_le_val (Nat.zero_le _))
    have := hnn ⟨0, by omega⟩
    simp only at *
    linarith
  -- one class iff strongly connected
  have hclass : StronglyConnected g.W.dense ↔ Nat.card (Quot (Arc g.W.dense)) = 1 := by
    rw [Nat.card_eq_one_iff_unique]
    have hsymR : ∀ i j, Reach g.W.dense i j → Reach g.W.dense j i := by
      intro i j h
      induction h with
      | refl => exact .refl
      | tail _ h ih =>
        refine Relation.ReflTransGen.head ?_ ih
        unfold Arc at h ⊢
        rw [← hu]; exact h
    have hgen : ∀ i j, Relation.EqvGen (Arc g.W.dense) i j ↔ Reach g.W.dense i j := by
      intro i j
      constructor
      · intro h
        induction h with
        | rel i j h => exact .single h
        | refl i => exact .refl
        | symm i j _ ih => exact hsymR _ _ ih
        | trans i j k _ _ ih1 ih2 => exact ih1.trans ih2
      · intro h
        induction h with
        | refl => exact .refl _
        | tail _ h ih => exact .trans _ _ _ ih (.rel _ _ h)
    constructor
    · intro h
      refine ⟨⟨fun a b => ?_⟩, ⟨Quot.mk _ ⟨0, by omega⟩⟩⟩
      induction a using Quot.ind with | mk a =>
      induction b using Quot.ind with | mk b =>
      exact Quot.eqvGen_sound ((hgen a b).2 (h a b))
    · rintro ⟨h, -⟩ i j
      have := h.elim (Quot.mk (Arc g.W.dense) i) (Quot.mk _ j)
      exact (hgen i j).1 (Quot.eqvGen_exact this)
  rw [hclass, ← hcard]
  simp only
  constructor
  · intro h
    refine lt_of_le_of_ne (hnn _) fun h0 => ?_
    rw [Finset.card_eq_one] at h
    obtain ⟨a, ha⟩ := h
    have m0 : (⟨0, by omega⟩ : Fin k) ∈ ({a} : Finset (Fin k)) := by
      rw [← ha]; exact Finset.mem_filter.2 ⟨Finset.mem_univ _, he0⟩
    have m1 : (⟨1, hn⟩ : Fin k) ∈ ({a} : Finset (Fin k)) := by
      rw [← ha]; exact Finset.mem_filter.2 ⟨Finset.mem_univ _, h0.symm⟩
    rw [Finset.mem_singleton] at m0 m1
    rw [← m1] at m0
    simp at m0
  · intro h
    rw [Finset.card_eq_one]
    refine ⟨⟨0, by omega⟩, ?_⟩
    ext j
    simp only [Finset.mem_filter, Finset.mem_univ, true_and, Finset.mem_singleton]
    constructor
    · intro hj
      by_contra hne
      have hj1 : (⟨1, hn⟩ : Fin k) ≤ j := by
        rw [Fin.le_def]
        simp only
        have : j.val ≠ 0 := fun h => hne (Fin.ext h)
        omega
      have := h5 hj1
      simp only at this
      linarith
    · rintro rfl; exact he0

/-- two components: two zero eigenvalues -/
example : ∃ g : Graph 3 ℝ, g.Built ∧ NonnegW g.W.dense ∧ Undirected g.W.dense ∧ ¬ StronglyConnected g.W.dense := by
  obtain ⟨g, hg, hd, -⟩ := Graph.exists_built (K := ℝ) !![0, 1, 0; 1, 0, 0; 0, 0, 0]
  refine ⟨g, hg, ?_, ?_, ?_⟩
  · rw [hd]; intro i j; fin_cases i <;> fin_cases j <;> simp
  · rw [hd]; intro i j; fin_cases i <;> fin_cases j <;> simp
  · rw [hd]
    intro h
    have h1 := h 0 2
    rcases Relation.ReflTransGen.cases_tail h1 with h2 | ⟨c, -, h2⟩
    · simp at h2
    · revert h2; fin_cases c <;> simp [Arc]

end PyGSP
