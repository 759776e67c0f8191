import Verif.Lemmas.Filter
import Mathlib.RingTheory.Polynomial.Chebyshev
import Mathlib.Analysis.SpecialFunctions.Trigonometric.Chebyshev.Basic
import Mathlib.LinearAlgebra.Lagrange

/-! # Lemmas about the Chebyshev approximation -/

namespace PyGSP.Spec

open Polynomial

/-- `c_0 / 2 + Σ_{1 ≤ k < M} c_k T_k` -/
noncomputable def chebSeries (c : ℕ → ℝ) (M : ℕ) : ℝ[X] :=
  C (c 0 / 2) + ∑ k ∈ Finset.Ico 1 M, C (c k) * Chebyshev.T ℝ k

end PyGSP.Spec

namespace PyGSP

open Matrix Spec Polynomial

variable {n : ℕ}

section loop

variable (L : Matrix (Fin n) (Fin n) ℝ) (l : ℝ)

/-- the rescaled Laplacian `2 L / lmax - I` -/
noncomputable def rescaled : Matrix (Fin n) (Fin n) ℝ := (2 / l) • L - 1

theorem chebLoop_invariant {ns q : ℕ} (c : Fin q → ℕ → ℝ) (X : Matrix (Fin n) (Fin ns) ℝ) (t : ℕ) :
    let A := rescaled L l
    ((List.range' 2 t).foldl (chebStep ((2 : ℝ) • A) c)
      { old := X, cur := A * X, r := fun i => ((1 / 2) * c i 0) • X + c i 1 • (A * X) }) =
    { old := aeval A (Chebyshev.T ℝ t) * X, cur := aeval A (Chebyshev.T ℝ (t + 1 : ℕ)) * X,
      r := fun i => aeval A (chebSeries (c i) (t + 2)) * X } := by
  intro A
  induction t with
  | zero =>
    simp only [List.range'_zero, List.foldl_nil, Nat.cast_zero, Chebyshev.T_zero, zero_add, Nat.cast_one,
      Chebyshev.T_one, aeval_X, map_one, Matrix.one_mul, ChebState.mk.injEq, true_and]
    funext i
    unfold chebSeries
    simp only [show Finset.Ico 1 2 = {1} from rfl, Finset.sum_singleton, Nat.cast_one, Chebyshev.T_one, map_add, map_mul,
      aeval_X, aeval_C, Matrix.add_mul, Matrix.mul_assoc]
    rw [Algebra.algebraMap_eq_smul_one, Algebra.algebraMap_eq_smul_one, Matrix.smul_mul, Matrix.smul_mul,
      Matrix.one_mul, Matrix.one_mul]
    congr 2
    ring
  | succ t ih =>
    rw [List.range'_1_concat, List.foldl_append, ih]
    simp only [List.foldl_cons, List.foldl_nil, chebStep]
    have hnew : ((2 : ℝ) • A) * (aeval A (Chebyshev.T ℝ (t + 1 : ℕ)) * X) - aeval A (Chebyshev.T ℝ t) * X =
        aeval A (Chebyshev.T ℝ (t + 1 + 1 : ℕ)) * X := by
      have : Chebyshev.T ℝ (t + 1 + 1 : ℕ) = 2 * Polynomial.X * Chebyshev.T ℝ (t + 1 : ℕ) - Chebyshev.T ℝ t := by
        have := Chebyshev.T_add_two ℝ t
        push_cast
        rw [add_assoc]
        exact this
      rw [this, map_sub, map_mul, map_mul, aeval_X, Matrix.sub_mul, ← Matrix.mul_assoc]
      congr 3
      rw [map_ofNat]
      exact two_smul ℝ A ▸ (two_mul A).symm
    simp only [ChebState.mk.injEq]
    refine ⟨trivial, hnew, ?_⟩
    funext i
    rw [hnew]
    have : chebSeries (c i) (t + 1 + 2) = chebSeries (c i) (t + 2) + C (c i (2 + t)) * Chebyshev.T ℝ (t + 1 + 1 : ℕ) := by
      unfold chebSeries
      rw [show t + 1 + 2 = (t + 2) + 1 from rfl, Finset.sum_Ico_succ_top (by omega), add_assoc, Nat.add_comm 2 t]
    rw [this, map_add, map_mul, aeval_C, Matrix.add_mul, Algebra.algebraMap_eq_smul_one, Matrix.mul_assoc, Matrix.smul_mul,
      Matrix.one_mul]

/-- The loop of `cheby_op` evaluates the truncated Chebyshev series at `2 L / lmax - I`. -/
theorem chebLoop_eq (hl : l ≠ 0) {ns q M : ℕ} (hM : 2 ≤ M) (c : Fin q → ℕ → ℝ) (X : Matrix (Fin n) (Fin ns) ℝ)
    (i : Fin q) : (chebLoop L l M c X).r i = aeval (rescaled L l) (chebSeries (c i) M) * X := by
  have h := chebLoop_invariant L l c X (M - 2)
  have e1 : (1 / ((l - 0) / 2)) • (L * X - ((l + 0) / 2) • X) = rescaled L l * X := by
    unfold rescaled
    rw [Matrix.sub_mul, Matrix.one_mul, smul_sub, smul_smul, Matrix.smul_mul]
    congr 1
    · congr 1; field_simp; ring
    · rw [show 1 / ((l - 0) / 2) * ((l + 0) / 2) = 1 by field_simp; ring, one_smul]
  have e2 : (2 / ((l - 0) / 2)) • (L - ((l + 0) / 2) • (1 : Matrix (Fin n) (Fin n) ℝ)) = (2 : ℝ) • rescaled L l := by
    unfold rescaled
    rw [smul_sub, smul_sub, smul_smul, smul_smul]
    congr 1
    · congr 1; field_simp; ring
    · congr 1; field_simp; ring
  unfold chebLoop
  simp only [e1, e2]
  simp only at h
  rw [h]
  simp only
  rw [Nat.sub_add_cancel hM]

end loop

/-! ### discrete orthogonality -/

section ortho
open Real

/-- Dirichlet kernel -/
theorem dirichlet_kernel (φ : ℝ) : ∀ N : ℕ, 0 < N →
    2 * sin (φ / 2) * (1 / 2 + ∑ k ∈ Finset.Ico 1 N, cos (k * φ)) = sin ((N - 1 / 2) * φ)
  | 0, h => absurd h (lt_irrefl _)
  | 1, _ => by
    simp
    rw [show (1 - 2⁻¹ : ℝ) * φ = φ / 2 by ring]
    ring
  | N + 2, _ => by
    have ih := dirichlet_kernel φ (N + 1) (Nat.succ_pos _)
    rw [Finset.sum_Ico_succ_top (by omega), ← add_assoc, mul_add, ih]
    have h := two_mul_sin_mul_cos_aux (φ / 2) ((N + 1 : ℕ) * φ)
    rw [h]
    push_cast
    rw [show (φ / 2 - ((N : ℝ) + 1) * φ) = -((N + 1 - 1 / 2) * φ) by ring, sin_neg,
      show φ / 2 + ((N : ℝ) + 1) * φ = (N + 2 - 1 / 2) * φ by ring]
    ring
where
  two_mul_sin_mul_cos_aux (a b : ℝ) : 2 * sin a * cos b = sin (a - b) + sin (a + b) := by
    rw [sin_sub, sin_add]; ring

/-- value of the Dirichlet kernel at `π d / N`, `0 < |d| < 2 N` -/
theorem dirichlet_at (N : ℕ) (hN : 0 < N) (d : ℤ) (hd : sin (π * d / N / 2) ≠ 0) :
    1 / 2 + ∑ k ∈ Finset.Ico 1 N, cos (k * (π * d / N)) = -((-1) ^ d.natAbs) / 2 := by
  have h := dirichlet_kernel (π * d / N) N hN
  have hN' : (N : ℝ) ≠ 0 := by positivity
  have e : ((N : ℝ) - 1 / 2) * (π * d / N) = d * π - π * d / N / 2 := by field_simp
  rw [e, sin_sub, sin_int_mul_pi, cos_int_mul_pi] at h
  have h2 : 2 * (1 / 2 + ∑ k ∈ Finset.Ico 1 N, cos (k * (π * d / N))) = - ((-1) ^ d) := by
    apply mul_left_cancel₀ hd
    linarith
  have h3 : ((-1 : ℝ)) ^ d = (-1) ^ d.natAbs := by
    rcases Int.natAbs_eq d with h | h
    · conv_lhs => rw [h]
      exact _root_.zpow_natCast _ _
    · conv_lhs => rw [h]
      rw [_root_.zpow_neg, _root_.zpow_natCast]
      rcases neg_one_pow_eq_or ℝ d.natAbs with h | h <;> rw [h] <;> norm_num
  rw [h3] at h2
  linarith

/-- the Chebyshev angles -/
noncomputable def chebAngle (N : ℕ) (j : ℕ) : ℝ := π * (j + 1 / 2) / N

theorem cheb_ortho (N : ℕ) {i j : ℕ} (hi : i < N) (hj : j < N) :
    1 / 2 + ∑ k ∈ Finset.Ico 1 N, cos (k * chebAngle N i) * cos (k * chebAngle N j) = if i = j then (N : ℝ) / 2 else 0 := by
  have hN : 0 < N := by omega
  have hN' : (N : ℝ) ≠ 0 := by positivity
  have hNp : (0 : ℝ) < N := by positivity
  have key : 1 / 2 + ∑ k ∈ Finset.Ico 1 N, cos (k * chebAngle N i) * cos (k * chebAngle N j) =
      1 / 2 * ((1 / 2 + ∑ k ∈ Finset.Ico 1 N, cos (k * (π * ((i : ℤ) - j : ℤ) / N))) +
        (1 / 2 + ∑ k ∈ Finset.Ico 1 N, cos (k * (π * ((i : ℤ) + j + 1 : ℤ) / N)))) := by
    have : ∀ k : ℕ, cos (k * chebAngle N i) * cos (k * chebAngle N j) =
        1 / 2 * cos (k * (π * ((i : ℤ) - j : ℤ) / N)) + 1 / 2 * cos (k * (π * ((i : ℤ) + j + 1 : ℤ) / N)) := by
      intro k
      have a : (k : ℝ) * (π * ((i : ℤ) - j : ℤ) / N) = k * chebAngle N i - k * chebAngle N j := by
        unfold chebAngle; push_cast; field_simp; ring
      have b : (k : ℝ) * (π * ((i : ℤ) + j + 1 : ℤ) / N) = k * chebAngle N i + k * chebAngle N j := by
        unfold chebAngle; push_cast; field_simp; ring
      rw [a, b, cos_sub, cos_add]; ring
    simp only [this, Finset.sum_add_distrib, ← Finset.mul_sum]
    ring
  rw [key]
  have s2 : sin (π * ((i : ℤ) + j + 1 : ℤ) / N / 2) ≠ 0 := by
    apply ne_of_gt
    apply sin_pos_of_pos_of_lt_pi
    · push_cast; positivity
    · have : ((i : ℝ) + j + 1) < 2 * N := by
        have : i + j + 1 < 2 * N := by omega
        exact_mod_cast this
      push_cast
      rw [div_div, div_lt_iff₀ (by positivity)]
      nlinarith [pi_pos]
  rw [dirichlet_at N hN _ s2]
  by_cases h : i = j
  · subst h
    simp only [if_true, sub_self, Int.cast_zero, mul_zero, zero_div, cos_zero, Finset.sum_const, Nat.card_Ico, nsmul_eq_mul,
      mul_one]
    have : ((i : ℤ) + i + 1).natAbs = 2 * i + 1 := by omega
    rw [this, Nat.cast_sub hN]
    simp only [pow_succ, pow_mul, Nat.cast_one]
    norm_num
    ring
  · rw [if_neg h]
    have s1 : sin (π * ((i : ℤ) - j : ℤ) / N / 2) ≠ 0 := by
      have hd : ((i : ℝ) - j) < N ∧ -(N : ℝ) < (i : ℝ) - j := by
        have h1 : (i : ℝ) < N := by exact_mod_cast hi
        have h2 : (j : ℝ) < N := by exact_mod_cast hj
        have h3 : (0 : ℝ) ≤ i := by positivity
        have h4 : (0 : ℝ) ≤ j := by positivity
        constructor <;> linarith
      push_cast
      rw [Ne, sin_eq_zero_iff_of_lt_of_lt]
      · intro h0
        have : ((i : ℝ) - j) = 0 := by
          have := pi_ne_zero
          field_simp at h0
          rw [mul_zero] at h0
          exact (mul_eq_zero.1 h0).resolve_left this
        apply h
        have : (i : ℝ) = j := by linarith
        exact_mod_cast this
      · rw [div_div, lt_div_iff₀ (by positivity)]
        nlinarith [pi_pos, hd.2]
      · rw [div_div, div_lt_iff₀ (by positivity)]
        nlinarith [pi_pos, hd.1]
    rw [dirichlet_at N hN _ s1]
    have : (-1 : ℝ) ^ ((i : ℤ) + j + 1).natAbs = - (-1) ^ ((i : ℤ) - j).natAbs := by
      have hp : ((i : ℤ) + j + 1).natAbs % 2 = (((i : ℤ) - j).natAbs + 1) % 2 := by omega
      rw [neg_one_pow_eq_pow_mod_two, hp, ← neg_one_pow_eq_pow_mod_two, pow_succ]
      ring
    rw [this]
    ring

/-- the coefficients computed by the code, from the samples `y` -/
noncomputable def chebC {N : ℕ} (y : Fin N → ℝ) (k : ℕ) : ℝ := 2 / N * ∑ j, y j * cos (k * chebAngle N j)

theorem chebSeries_eval (c : ℕ → ℝ) (M : ℕ) (θ : ℝ) :
    (chebSeries c M).eval (cos θ) = c 0 / 2 + ∑ k ∈ Finset.Ico 1 M, c k * cos (k * θ) := by
  unfold chebSeries
  rw [eval_add, eval_C, eval_finset_sum]
  congr 1
  refine Finset.sum_congr rfl fun k _ => ?_
  rw [eval_mul, eval_C]
  congr 1
  have := Chebyshev.T_real_cos θ k
  simpa using this

theorem chebSeries_interp {N : ℕ} (y : Fin N → ℝ) (i : Fin N) :
    (chebSeries (chebC y) N).eval (cos (chebAngle N i)) = y i := by
  have hN : 0 < N := i.pos
  have hN' : (N : ℝ) ≠ 0 := by positivity
  rw [chebSeries_eval]
  have e : chebC y 0 / 2 + ∑ k ∈ Finset.Ico 1 N, chebC y k * cos (k * chebAngle N i) =
      2 / N * ∑ j : Fin N, y j * (1 / 2 + ∑ k ∈ Finset.Ico 1 N, cos (k * chebAngle N j) * cos (k * chebAngle N i)) := by
    unfold chebC
    simp only [mul_add, Finset.sum_add_distrib]
    congr 1
    · simp [Finset.mul_sum, Finset.sum_div]
      refine Finset.sum_congr rfl fun j _ => ?_
      ring
    · simp only [Finset.mul_sum, Finset.sum_mul]
      rw [Finset.sum_comm]
      refine Finset.sum_congr rfl fun j _ => Finset.sum_congr rfl fun k _ => ?_
      ring
  rw [e]
  have : ∀ j : Fin N, y j * (1 / 2 + ∑ k ∈ Finset.Ico 1 N, cos (k * chebAngle N j) * cos (k * chebAngle N i)) =
      if j = i then y j * (N / 2) else 0 := by
    intro j
    rw [cheb_ortho N j.2 i.2]
    by_cases h : j = i
    · rw [if_pos h, if_pos (by rw [h])]
    · rw [if_neg h, if_neg (fun h' => h (Fin.ext h')), mul_zero]
  simp only [this, Finset.sum_ite_eq', Finset.mem_univ, if_true]
  field_simp

theorem natDegree_chebSeries (c : ℕ → ℝ) (m : ℕ) : (chebSeries c (m + 1)).natDegree ≤ m := by
  unfold chebSeries
  refine natDegree_add_le_of_degree_le (by simp) ?_
  refine natDegree_sum_le_of_forall_le _ _ fun k hk => ?_
  refine (natDegree_C_mul_le _ _).trans ?_
  have := Chebyshev.natDegree_T ℝ k
  rw [this]
  have := Finset.mem_Ico.1 hk
  simp; omega

/-- the affine map `x ↦ 2 x / l - 1` as a polynomial -/
noncomputable def affine (l : ℝ) : ℝ[X] := C (2 / l) * X - 1

theorem aeval_rescaled (L : Matrix (Fin n) (Fin n) ℝ) (l : ℝ) (p : ℝ[X]) :
    aeval (rescaled L l) p = aeval L (p.comp (affine l)) := by
  rw [aeval_comp]
  congr 1
  simp only [affine, map_sub, map_mul, aeval_C, aeval_X, map_one, rescaled]
  rw [Algebra.algebraMap_eq_smul_one, Matrix.smul_mul, Matrix.one_mul]

theorem eval_affine_node {l : ℝ} (hl : l ≠ 0) (N : ℕ) (j : Fin N) :
    (affine l).eval (chebNode l N j) = cos (chebAngle N j) := by
  simp only [affine, eval_sub, eval_mul, eval_C, eval_X, eval_one, chebNode, chebAngle]
  field_simp
  ring

theorem chebNode_injective {l : ℝ} (hl : l ≠ 0) (N : ℕ) : Function.Injective (chebNode l N) := by
  intro i j h
  have hN : 0 < N := i.pos
  have h' : cos (chebAngle N i) = cos (chebAngle N j) := by
    rw [← eval_affine_node hl, ← eval_affine_node hl, h]
  have hr : ∀ i : Fin N, chebAngle N i ∈ Set.Icc 0 π := by
    intro i
    unfold chebAngle
    have hN' : (0 : ℝ) < N := by positivity
    refine ⟨by positivity, ?_⟩
    rw [div_le_iff₀ hN']
    have : (i : ℝ) + 1 ≤ N := by exact_mod_cast i.2
    nlinarith [pi_pos]
  have := injOn_cos (hr i) (hr j) h'
  unfold chebAngle at this
  have hN' : (N : ℝ) ≠ 0 := by positivity
  have hpi := pi_ne_zero
  field_simp at this
  have h2 : (i : ℝ) = j := by linarith
  exact Fin.ext (by exact_mod_cast h2)

/-- The polynomial evaluated by the code is the only one of degree at most `m` that takes the sampled values at the
`m + 1` abscissae. -/
theorem cheb_unique {l : ℝ} (hl : l ≠ 0) (m : ℕ) (y : Fin (m + 1) → ℝ) (q : ℝ[X]) (hq : q.natDegree ≤ m)
    (hv : ∀ j, q.eval (chebNode l (m + 1) j) = y j) :
    (chebSeries (chebC y) (m + 1)).comp (affine l) = q := by
  have hd : ((chebSeries (chebC y) (m + 1)).comp (affine l)).natDegree ≤ m := by
    refine natDegree_comp_le.trans ?_
    have h1 : (affine l).natDegree ≤ 1 := by
      unfold affine
      compute_degree
    calc _ ≤ m * 1 := Nat.mul_le_mul (natDegree_chebSeries _ _) h1
      _ = m := by ring
  have hdeg : ∀ p : ℝ[X], p.natDegree ≤ m → p.degree < (Finset.univ : Finset (Fin (m + 1))).card := by
    intro p hp
    rw [Finset.card_univ, Fintype.card_fin]
    refine (degree_le_natDegree).trans_lt ?_
    exact_mod_cast Nat.lt_succ_of_le hp
  refine Polynomial.eq_of_degrees_lt_of_eval_index_eq Finset.univ (v := chebNode l (m + 1))
    (Function.Injective.injOn (chebNode_injective hl _)) (hdeg _ hd) (hdeg _ hq) fun j _ => ?_
  rw [eval_comp, eval_affine_node hl, chebSeries_interp, hv]

end ortho

/-! ### the code -/

section code
open GState

variable {S : Solvers n}

theorem lmaxNum_stored {s s' : GState n} {l : ℝ} (h : Bank.lmaxNum S s = (.ok l, s')) :
    s'.lmax = some (.fin l) ∧ s'.L = s.L ∧ Bank.lmaxNum S s' = (.ok l, s') := by
  have h1 : s.getLmax S = (.ok (some (.fin l)), s') := by
    unfold Bank.lmaxNum at h
    split at h <;> simp at h
    rename_i l' s'' heq
    rw [heq, h.1, h.2]
  have h2 : s'.lmax = some (.fin l) ∧ s'.L = s.L := by
    unfold getLmax at h1
    split at h1
    · rename_i v hv
      simp only [Prod.mk.injEq, Except.ok.injEq, Option.some.injEq] at h1
      rw [← h1.2, hv, h1.1]
      exact ⟨rfl, rfl⟩
    · simp only at h1
      split at h1
      · simp at h1
      · simp only [Prod.mk.injEq, Except.ok.injEq] at h1
        refine ⟨by rw [← h1.2, h1.1], ?_⟩
        rw [← h1.2]
        exact estimateLmax_L S .lanczos s
  refine ⟨h2.1, h2.2, ?_⟩
  unfold Bank.lmaxNum getLmax
  rw [h2.1]

theorem chebCoeff1_eq (g : Kernel) (l : ℝ) (m : ℕ) (c : Fin (m + 1) → ℝ)
    (h : chebCoeff1 g l m (m + 1) = .ok c) : ∃ y, g (m + 1) (chebNode l (m + 1)) = .ok y ∧
      ∀ k : Fin (m + 1), c k = chebC y k := by
  unfold chebCoeff1 at h
  split at h
  · simp at h
  · rename_i y hy
    refine ⟨y, hy, fun k => ?_⟩
    rw [← Except.ok.inj h]
    simp only [chebC, chebAngle]
    congr 1
    refine Finset.sum_congr rfl fun j _ => ?_
    congr 2
    ring

theorem chebCoeff1_ok (g : Kernel) (l : ℝ) (m : ℕ) {y : Fin (m + 1) → ℝ}
    (h : g (m + 1) (chebNode l (m + 1)) = .ok y) :
    chebCoeff1 g l m (m + 1) = .ok fun k => chebC y k := by
  unfold chebCoeff1
  rw [h]
  refine congrArg Except.ok ?_
  funext k
  simp only [chebC, chebAngle]
  congr 1
  refine Finset.sum_congr rfl fun j _ => ?_
  congr 2
  ring

theorem chebSeries_congr {c c' : ℕ → ℝ} {M : ℕ} (hM : 0 < M) (h : ∀ k < M, c k = c' k) : chebSeries c M = chebSeries c' M := by
  unfold chebSeries
  rw [h 0 hM]
  congr 1
  refine Finset.sum_congr rfl fun k hk => ?_
  rw [h k (Finset.mem_Ico.1 hk).2]

/-- what `cheby_op` returns, block by block -/
theorem chebyOp_eq {s s' : GState n} {l : ℝ} (h : Bank.lmaxNum S s = (.ok l, s')) (hl : l ≠ 0) {ns q M : ℕ} (hM : 2 ≤ M)
    (c : Fin q → Fin M → ℝ) (X : Matrix (Fin n) (Fin ns) ℝ) :
    chebyOp S c X s = (.ok (Matrix.of fun row j => (aeval (rescaled s.L l) (chebSeries
      (fun k => if h : k < M then c (finProdFinEquiv.symm row).1 ⟨k, h⟩ else 0) M) * X)
      (finProdFinEquiv.symm row).2 j), s') := by
  unfold chebyOp
  rw [if_neg (by omega)]
  simp only [h]
  rw [if_neg (by simpa using hl)]
  refine congrArg (fun z => (Except.ok z, s')) ?_
  ext row j
  simp only [Matrix.of_apply]
  rw [chebLoop_eq _ _ hl hM, (lmaxNum_stored h).2.1]

/-- what the Chebyshev analysis returns -/
theorem chebAnalysis_eq (f : Bank) (hf : 0 < f.Nf) {s s' : GState n} {l : ℝ} (h : Bank.lmaxNum S s = (.ok l, s'))
    (hl : l ≠ 0) {m : ℕ} (hm : 1 ≤ m) {y : Fin f.Nf → Fin (m + 1) → ℝ} (hy : f.evaluate (chebNode l (m + 1)) = .ok y)
    {ns : ℕ} (x : Fin n → Fin ns → ℝ) :
    f.chebAnalysis S m x s = (.ok fun v j i =>
      (aeval (rescaled s.L l) (chebSeries (chebC (y i)) (m + 1)) * Matrix.of x) v j, s') := by
  have hst := lmaxNum_stored h
  have hc : chebCoeffs S f m none s = (.ok fun i (k : Fin (m + 1)) => chebC (y i) k, s') := by
    unfold chebCoeffs
    simp only [h, Option.getD_none, if_true]
    rw [if_neg (by omega)]
    refine congrArg (fun z => (z, s')) ?_
    rw [seqFin_ok]
    intro i
    exact chebCoeff1_ok _ _ _ ((seqFin_ok _ _ _).1 hy i)
  unfold Bank.chebAnalysis Bank.chebAnalysisWith
  simp only [hc]
  rw [chebyOp_eq hst.2.2 hl (by omega)]
  simp only
  refine congrArg (fun z => (Except.ok z, s')) ?_
  funext v j i
  simp only [Matrix.of_apply, Equiv.symm_apply_apply, hst.2.1]
  congr 2
  rw [chebSeries_congr (Nat.succ_pos m)]
  intro k hk
  rw [dif_pos hk]

theorem chebSynthLoop_eq {s : GState n} {l : ℝ} (h : Bank.lmaxNum S s = (.ok l, s)) (hl : l ≠ 0) {q M ns : ℕ}
    (hM : 2 ≤ M) (c : Fin q → Fin M → ℝ) (x : Fin n → Fin ns → Fin q → ℝ) : ∀ (is : List (Fin q)) acc,
    Bank.chebSynthLoop S c x is acc s = (.ok (acc + (is.map fun i => aeval (rescaled s.L l) (chebSeries
      (fun k => if h : k < M then c i ⟨k, h⟩ else 0) M) * Matrix.of fun v j => x v j i).sum), s)
  | [], acc => by simp [Bank.chebSynthLoop]
  | i :: is, acc => by
    unfold Bank.chebSynthLoop
    rw [chebyOp_eq h hl hM]
    simp only
    rw [chebSynthLoop_eq h hl hM c x is]
    refine congrArg (fun z => (Except.ok z, s)) ?_
    rw [List.map_cons, List.sum_cons, ← add_assoc]
    congr 2
    ext v j
    simp only [Matrix.of_apply, Equiv.symm_apply_apply]

/-- what the Chebyshev synthesis returns -/
theorem chebSynthesis_eq (f : Bank) (hf : 0 < f.Nf) {s s' : GState n} {l : ℝ} (h : Bank.lmaxNum S s = (.ok l, s'))
    (hl : l ≠ 0) {m : ℕ} (hm : 1 ≤ m) {y : Fin f.Nf → Fin (m + 1) → ℝ} (hy : f.evaluate (chebNode l (m + 1)) = .ok y)
    {ns : ℕ} (x : Fin n → Fin ns → Fin f.Nf → ℝ) :
    f.chebSynthesis S m x s = (.ok fun v j _ => ∑ i,
      (aeval (rescaled s.L l) (chebSeries (chebC (y i)) (m + 1)) * Matrix.of fun v j => x v j i) v j, s') := by
  have hst := lmaxNum_stored h
  have hc : chebCoeffs S f m none s = (.ok fun i (k : Fin (m + 1)) => chebC (y i) k, s') := by
    unfold chebCoeffs
    simp only [h, Option.getD_none, if_true]
    rw [if_neg (by omega)]
    refine congrArg (fun z => (z, s')) ?_
    rw [seqFin_ok]
    intro i
    exact chebCoeff1_ok _ _ _ ((seqFin_ok _ _ _).1 hy i)
  unfold Bank.chebSynthesis Bank.chebSynthesisWith
  simp only [hc]
  rw [chebSynthLoop_eq hst.2.2 hl (by omega)]
  simp only
  refine congrArg (fun z => (Except.ok z, s')) ?_
  funext v j _
  rw [zero_add, ← Fin.sum_univ_def, Matrix.sum_apply]
  refine Finset.sum_congr rfl fun i _ => ?_
  rw [hst.2.1]
  congr 3
  rw [chebSeries_congr (Nat.succ_pos m)]
  intro k hk
  rw [dif_pos hk]

end code

end PyGSP
