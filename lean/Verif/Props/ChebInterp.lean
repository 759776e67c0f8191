import Verif.Lemmas.Interp
import Verif.Spec.Reduction
import Verif.Props.Cheby
import Verif.Props.Interp
import Mathlib.Analysis.SpecialFunctions.Trigonometric.Chebyshev.RootsExtrema

/-! # Chebyshev approximation of `1 / (eps + x)` -/

namespace PyGSP

open Matrix Spec GState Reduction Learning Polynomial

variable {n k : ℕ}

/-- the Chebyshev polynomial of degree `N` moved to `[0, l]` -/
noncomputable def shiftedT (l : ℝ) (N : ℕ) : ℝ[X] := (Chebyshev.T ℝ N).comp (affine l)

theorem affine_eval (l x : ℝ) : (affine l).eval x = 2 / l * x - 1 := by simp [affine]

theorem shiftedT_eval (l x : ℝ) (N : ℕ) : (shiftedT l N).eval x = (Chebyshev.T ℝ N).eval (2 / l * x - 1) := by
  rw [shiftedT, eval_comp, affine_eval]

theorem natDegree_shiftedT (l : ℝ) (N : ℕ) : (shiftedT l N).natDegree ≤ N := by
  refine natDegree_comp_le.trans ?_
  have h1 : (affine l).natDegree ≤ 1 := by
    unfold affine
    compute_degree
  have h2 : (Chebyshev.T ℝ N).natDegree ≤ N := (Chebyshev.natDegree_T ℝ N).le
  calc _ ≤ N * 1 := Nat.mul_le_mul h2 h1
    _ = N := by ring

theorem shiftedT_node {l : ℝ} (hl : l ≠ 0) (N : ℕ) (j : Fin N) : (shiftedT l N).eval (chebNode l N j) = 0 := by
  rw [shiftedT, eval_comp, eval_affine_node hl]
  have := Chebyshev.T_real_cos (chebAngle N j) N
  rw [this]
  have hN : (N : ℝ) ≠ 0 := by have := j.pos; positivity
  rw [show ((N : ℤ) : ℝ) * chebAngle N j = Real.pi / 2 + j.1 * Real.pi by
    unfold chebAngle; push_cast; field_simp; ring]
  rw [Real.cos_add_nat_mul_pi, Real.cos_pi_div_two, mul_zero]

/-- the growth factor `T_N(1 + 2 eps / l)` -/
noncomputable def growth (l eps : ℝ) (N : ℕ) : ℝ := (Chebyshev.T ℝ N).eval (1 + 2 * eps / l)

theorem growth_cosh {l eps : ℝ} (hl : 0 < l) (he : 0 < eps) : ∃ θ : ℝ, 0 < θ ∧ ∀ N : ℕ, growth l eps N = Real.cosh (N * θ) := by
  have h1 : 1 < 1 + 2 * eps / l := by have : 0 < 2 * eps / l := by positivity
                                      linarith
  refine ⟨Real.arcosh (1 + 2 * eps / l), Real.arcosh_pos h1, fun N => ?_⟩
  unfold growth
  conv_lhs => rw [← Real.cosh_arcosh h1.le]
  rw [Chebyshev.T_real_cosh]
  simp

theorem growth_strictMono {l eps : ℝ} (hl : 0 < l) (he : 0 < eps) : StrictMono (growth l eps) := by
  obtain ⟨θ, hθ, h⟩ := growth_cosh hl he
  intro a b hab
  rw [h, h, Real.cosh_lt_cosh, abs_of_nonneg (by positivity), abs_of_nonneg (by positivity)]
  have : (a : ℝ) < b := by exact_mod_cast hab
  nlinarith

theorem growth_pos {l eps : ℝ} (hl : 0 < l) (he : 0 < eps) (N : ℕ) : 0 < growth l eps N := by
  obtain ⟨θ, hθ, h⟩ := growth_cosh hl he
  rw [h]; exact Real.cosh_pos _

theorem shiftedT_pole {l eps : ℝ} (hl : 0 < l) (N : ℕ) : (shiftedT l N).eval (-eps) = (-1) ^ N * growth l eps N := by
  rw [shiftedT_eval, growth]
  have := Chebyshev.T_eval_neg (R := ℝ) N (1 + 2 * eps / l)
  rw [show 2 / l * -eps - 1 = -(1 + 2 * eps / l) by field_simp; ring, this]
  simp [Int.negOnePow]

/-- the interpolating polynomial of `1 / (eps + x)` -/
theorem exists_green_poly {l eps : ℝ} (hl : 0 < l) (he : 0 < eps) (m : ℕ) :
    ∃ (q : ℝ[X]) (c : ℝ), q.natDegree ≤ m ∧ |c| = 1 / growth l eps (m + 1) ∧
      (X + C eps) * q = 1 - C c * shiftedT l (m + 1) ∧
      (∀ j, q.eval (chebNode l (m + 1) j) = 1 / (eps + chebNode l (m + 1) j)) := by
  set c : ℝ := 1 / (shiftedT l (m + 1)).eval (-eps) with hc
  have hg := growth_pos hl he (m + 1)
  have hne : (shiftedT l (m + 1)).eval (-eps) ≠ 0 := by
    rw [shiftedT_pole hl]
    exact mul_ne_zero (pow_ne_zero _ (by norm_num)) hg.ne'
  have hroot : (1 - C c * shiftedT l (m + 1)).IsRoot (-eps) := by
    simp only [IsRoot.def, eval_sub, eval_one, eval_mul, eval_C, hc]
    rw [one_div, inv_mul_cancel₀ hne, sub_self]
  obtain ⟨q, hq⟩ := dvd_iff_isRoot.2 hroot
  have hX : (X - C (-eps) : ℝ[X]) = X + C eps := by simp
  rw [hX] at hq
  refine ⟨q, c, ?_, ?_, hq.symm, fun j => ?_⟩
  · have hd : (1 - C c * shiftedT l (m + 1)).natDegree ≤ m + 1 := by
      refine (natDegree_sub_le _ _).trans (max_le (by simp) ?_)
      exact (natDegree_C_mul_le _ _).trans (natDegree_shiftedT _ _)
    by_cases hq0 : q = 0
    · simp [hq0]
    · rw [hq, natDegree_mul (X_add_C_ne_zero eps) hq0, natDegree_X_add_C] at hd
      omega
  · rw [hc, shiftedT_pole hl, abs_div, abs_one, abs_mul, abs_pow, abs_neg, abs_one, one_pow, one_mul, abs_of_pos hg]
  · have h1 := congrArg (eval (chebNode l (m + 1) j)) hq
    rw [eval_sub, eval_one, eval_mul, shiftedT_node hl.ne', mul_zero, sub_zero, eval_mul, eval_add, eval_X, eval_C] at h1
    have h2 : eps + chebNode l (m + 1) j ≠ 0 := by
      intro h0
      rw [add_comm] at h0
      rw [h0, zero_mul] at h1
      exact one_ne_zero h1
    field_simp
    linarith

theorem chebNode_nonneg {l : ℝ} (hl : 0 ≤ l) (N : ℕ) (j : Fin N) : 0 ≤ chebNode l N j := by
  unfold chebNode
  have := Real.neg_one_le_cos (Real.pi * (j + 1 / 2) / N)
  nlinarith

/-- the operator of the Chebyshev filter with the kernel `1 / (eps + x)` -/
theorem green_ops_cheb {S : Solvers n} {s : GState n} {l eps : ℝ} (h : (s.getLmax S).1 = .ok (some (.fin l))) (hl : 0 < l)
    (he : 0 < eps) {order : ℕ} (ho : order ≠ 0) :
    ∃ (q : ℝ[X]) (c : ℝ), |c| = 1 / growth l eps (order + 1) ∧ (X + C eps) * q = 1 - C c * shiftedT l (order + 1) ∧
      (Bank.ofArg (.one (greenKernel eps))).ops S .chebyshev order s = (.ok fun _ => aeval s.L q, (s.getLmax S).2) := by
  obtain ⟨q, c, h1, h2, h3, h4⟩ := exists_green_poly hl he order
  refine ⟨q, c, h2, h3, ?_⟩
  have hev : (Bank.ofArg (.one (greenKernel eps))).evaluate (chebNode l (order + 1)) =
      .ok fun _ j => 1 / (eps + chebNode l (order + 1) j) := by
    unfold Bank.evaluate
    rw [seqFin_ok]
    intro i
    have : i = ⟨0, Nat.one_pos⟩ := Fin.ext (Nat.lt_one_iff.1 i.2)
    rw [this]
    change greenKernel eps _ _ = _
    unfold greenKernel
    rw [if_neg]
    push Not
    intro j
    have := chebNode_nonneg hl.le (order + 1) j
    positivity
  exact ops_cheb_poly h hl.ne' (by change (1 : ℕ) ≠ 0; norm_num) ho hev (fun _ => q) (fun _ => h1) fun _ j => h4 j

/-- a spectral operator with values at most one does not increase the norm -/
theorem spectral_contract {U : Matrix (Fin n) (Fin n) ℝ} (ho : Uᵀ * U = 1) {d : Fin n → ℝ} (hd : ∀ j, |d j| ≤ 1) (x : Fin n → ℝ) :
    ∑ v, (spectralOp U d *ᵥ x) v ^ 2 ≤ ∑ v, x v ^ 2 := by
  have iso : ∀ z : Fin n → ℝ, ∑ v, (U *ᵥ z) v ^ 2 = ∑ j, z j ^ 2 := by
    intro z
    have h1 : (U *ᵥ z) ⬝ᵥ (U *ᵥ z) = z ⬝ᵥ z := by
      rw [Matrix.dotProduct_mulVec, ← Matrix.mulVec_transpose, Matrix.mulVec_mulVec, ho, Matrix.one_mulVec]
    simpa only [dotProduct, pow_two] using h1
  have hUU : U * Uᵀ = 1 := mul_eq_one_comm.1 ho
  have hx : ∑ v, x v ^ 2 = ∑ j, (Uᵀ *ᵥ x) j ^ 2 := by
    rw [← iso (Uᵀ *ᵥ x), Matrix.mulVec_mulVec, hUU, Matrix.one_mulVec]
  have e : spectralOp U d *ᵥ x = U *ᵥ (fun j => d j * (Uᵀ *ᵥ x) j) := by
    unfold spectralOp
    rw [← Matrix.mulVec_mulVec, ← Matrix.mulVec_mulVec]
    congr 1
    funext j
    rw [Matrix.mulVec_diagonal]
  rw [e, iso, hx]
  refine Finset.sum_le_sum fun j _ => ?_
  rw [mul_pow]
  have h1 : d j ^ 2 ≤ 1 := (sq_le_one_iff_abs_le_one _).2 (hd j)
  nlinarith [sq_nonneg ((Uᵀ *ᵥ x) j)]

section History

variable {S : Solvers n} (hS : Sound S) {g : Graph n ℝ} (hg : g.Built) (hist : List (Op n)) {s : GState n}
  (hs : s = runAll S hist (GState.ofGraph g)) (hW : NonnegW g.W.dense) (hn : 2 ≤ n)
  {ind : Fin k → Fin n} (hi : Function.Injective ind) (h0 : 0 < k)
  (he : ∃ v, ∀ a, ind a ≠ v) {eps : ℝ} (heps : 0 < eps) {l : ℝ} (hl : 0 < l)
  (hlm : (s.getLmax S).1 = .ok (some (.fin l))) {order : ℕ} (ho : order ≠ 0)

include hS hg hs hW hn hi h0 he heps hl hlm ho

/-- the Chebyshev interpolation and the exact one -/
theorem interpolate_cheb_core : ∃ (K : Matrix (Fin k) (Fin k) ℝ) (q : ℝ[X]) (c : ℝ),
    kronMatrix (s.L + eps • (1 : Matrix (Fin n) (Fin n) ℝ)) ind = .ok K ∧ |c| = 1 / growth l eps (order + 1) ∧
    (Bank.ofArg (.one (greenKernel eps))).ops S .chebyshev order s = (.ok fun _ => aeval s.L q, (s.getLmax S).2) ∧
    ∀ x v, IsInterpolation s.L eps ind x v →
      aeval s.L q *ᵥ scatter K ind x = v - c • (aeval s.L (shiftedT l (order + 1)) *ᵥ v) := by
  obtain ⟨hinv, hWs, -⟩ := reach_inv hS hg hist
  rw [← hs] at hinv hWs
  have hpsd : PSD s.L := hinv.psd (by rw [hWs]; exact hW)
  have hL : s.Lᵀ = s.L := Inv.L_transpose hinv
  have hdet : (uu (s.L + eps • (1 : Matrix (Fin n) (Fin n) ℝ)) (kept ind)).det ≠ 0 := det_uu_posdef fun x hx => by
    have := reg_smoothness s.L eps x
    unfold smoothness at this
    rw [this]
    exact reg_posdef hpsd heps x hx
  obtain ⟨q, c, hc, hq, hops⟩ := green_ops_cheb hlm hl heps ho
  obtain ⟨v0, hv0⟩ := he
  refine ⟨schur (s.L + eps • (1 : Matrix (Fin n) (Fin n) ℝ)) ind, q, c,
    kronMatrix_ok hi (reg_symm hL eps) h0 ⟨v0, (kept_false_iff _ _).2 hv0⟩ hdet, hc, hops, fun x v hv => ?_⟩
  have hsch := isSchur_schur hi hdet
  have hvz := fun u hu => currents_of_interpolation hi hL hpsd heps hv (u := u) hu
  have hsc : scatter (schur (s.L + eps • (1 : Matrix (Fin n) (Fin n) ℝ)) ind) ind x = (s.L + eps • (1 : Matrix (Fin n) (Fin n) ℝ)) *ᵥ v := by
    funext u
    by_cases hu : kept ind u = false
    · rw [scatter_out _ _ hu, hvz u hu]
    · obtain ⟨a, rfl⟩ := (kept_iff ind u).1 (by simpa using hu)
      rw [scatter_ind _ hi, ← hsch.restrict v hvz, ← funext hv.1]
  have h1 : s.L + eps • (1 : Matrix (Fin n) (Fin n) ℝ) = aeval s.L (X + C eps) := by
    simp only [map_add, aeval_X, aeval_C, Algebra.algebraMap_eq_smul_one]
  rw [hsc, h1, Matrix.mulVec_mulVec, ← map_mul, mul_comm q, hq, map_sub, map_one, map_mul, aeval_C, Algebra.algebraMap_eq_smul_one,
    Matrix.sub_mulVec, Matrix.one_mulVec, Matrix.smul_mul, Matrix.one_mul, Matrix.smul_mulVec]

/-- **Chebyshev interpolation**: with the default method, when `lmax` is an upper bound of the spectrum, the relative error
with respect to the exact interpolation `v` is at most `1 / T_{order+1}(1 + 2 eps / lmax)`. -/
theorem C63_chebyshev (hup : ∀ t, IsEigenvalue s.L t → t ≤ l) (x : Fin k → ℝ) :
    ∃ v w : Fin n → ℝ, IsInterpolation s.L eps ind x v ∧
      (interpolate S true (Arr.of1 x) ind order eps .chebyshev s).1 = .ok (Arr.of2 fun u (_ : Fin 1) => w u) ∧
      (interpolate S true (Arr.of2 fun a (_ : Fin 1) => x a) ind order eps .chebyshev s).1 =
        .ok (Arr.of2 fun u (_ : Fin 1) => w u) ∧
      ∑ u, (w u - v u) ^ 2 ≤ (1 / (Chebyshev.T ℝ (order + 1 : ℕ)).eval (1 + 2 * eps / l)) ^ 2 * ∑ u, v u ^ 2 := by
  obtain ⟨K, q, c, hK, hc, hops, hx⟩ := interpolate_cheb_core hS hg hist hs hW hn hi h0 he heps hl hlm ho
  obtain ⟨hinv, hWs, -⟩ := reach_inv hS hg hist
  rw [← hs] at hinv hWs
  have hpsd : PSD s.L := hinv.psd (by rw [hWs]; exact hW)
  have hL : s.Lᵀ = s.L := Inv.L_transpose hinv
  have hdet : (uu (s.L + eps • (1 : Matrix (Fin n) (Fin n) ℝ)) (kept ind)).det ≠ 0 := det_uu_posdef fun x hx => by
    have := reg_smoothness s.L eps x
    unfold smoothness at this
    rw [this]
    exact reg_posdef hpsd heps x hx
  obtain ⟨v, hv, hvz⟩ := (isSchur_schur hi hdet).extend x
  have hint := interpolation_of_currents hi hL hpsd heps hv hvz
  refine ⟨v, aeval s.L q *ᵥ scatter K ind x, hint, ?_, ?_, ?_⟩
  · unfold interpolate
    rw [if_neg (by simp), hK]
    simp only [scatterArr_of1]
    rw [analysis_of1 (by omega) hops]
  · unfold interpolate
    rw [if_neg (by simp), hK]
    simp only [scatterArr_of2]
    rw [analysis_col (by omega) hops]
  · have hsym : ∀ i j, s.L i j = s.L j i := fun i j => by conv_lhs => rw [← hL, Matrix.transpose_apply]
    obtain ⟨hep, -⟩ := hS.eigh 0 s.L hsym
    have hb : ∀ j, |(shiftedT l (order + 1)).eval ((S.eigh 0 s.L).1 j)| ≤ 1 := by
      intro j
      rw [shiftedT_eval]
      refine Chebyshev.abs_eval_T_real_le_one _ ?_
      have e1 := eig_nonneg hpsd (hep.isEigenvalue j)
      have e2 := hup _ (hep.isEigenvalue j)
      rw [abs_le]
      constructor
      · have : 0 ≤ 2 / l * (S.eigh 0 s.L).1 j := by positivity
        linarith
      · have : 2 / l * (S.eigh 0 s.L).1 j ≤ 2 := by
          rw [div_mul_eq_mul_div, div_le_iff₀ hl]; linarith
        linarith
    have h3 := spectral_contract hep.orthonormal hb v
    rw [← aeval_spectral hep] at h3
    rw [hx x v hint]
    have h4 : ∀ u, ((v - c • (aeval s.L (shiftedT l (order + 1)) *ᵥ v)) u - v u) ^ 2 =
        c ^ 2 * (aeval s.L (shiftedT l (order + 1)) *ᵥ v) u ^ 2 := fun u => by
      simp only [Pi.sub_apply, Pi.smul_apply, smul_eq_mul]; ring
    simp only [h4]
    rw [← Finset.mul_sum, ← sq_abs c, hc, growth]
    exact mul_le_mul_of_nonneg_left h3 (sq_nonneg _)

end History

end PyGSP
