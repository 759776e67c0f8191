import Verif.Lemmas.Single
import Verif.Lemmas.FilterAlg
import Verif.Lemmas.Learning
import Verif.Lemmas.Potential
import Mathlib.Analysis.Calculus.Deriv.Prod
import Mathlib.Analysis.SpecialFunctions.ExpDeriv
import Mathlib.Analysis.Convex.Jensen

/-!
# The heat semigroup of a symmetric matrix given by its eigenvectors
-/

namespace PyGSP.Heat

open Matrix Spec Real Filter Topology Learning

variable {n : ℕ} {L U : Matrix (Fin n) (Fin n) ℝ} {e : Fin n → ℝ}

/-- `exp(-t L)`. -/
noncomputable def op (e : Fin n → ℝ) (U : Matrix (Fin n) (Fin n) ℝ) (t : ℝ) : Matrix (Fin n) (Fin n) ℝ := spectralOp U fun k => exp (-(t * e k))

theorem op_zero (h : IsEigenPairs L e U) : op e U 0 = 1 := by
  unfold op
  simp only [zero_mul, neg_zero, exp_zero]
  exact spectralOp_one h.orthonormal

theorem op_add (h : IsEigenPairs L e U) (s t : ℝ) : op e U (s + t) = op e U s * op e U t := by
  unfold op
  rw [spectralOp_mul h.orthonormal]
  congr 1
  funext k
  rw [← exp_add]
  congr 1
  ring

theorem op_comm (e : Fin n → ℝ) (U : Matrix (Fin n) (Fin n) ℝ) (t : ℝ) (i j : Fin n) : op e U t i j = op e U t j i :=
  congrFun (congrFun (spectralOp_symm U fun k => exp (-(t * e k))) j) i

theorem lap_eq (h : IsEigenPairs L e U) : L = spectralOp U e := by
  unfold spectralOp
  rw [← h.eig, Matrix.mul_assoc, mul_eq_one_comm.1 h.orthonormal, Matrix.mul_one]

/-- the transform of a signal of the kernel -/
theorem coord_ker (h : IsEigenPairs L e U) {z : Fin n → ℝ} (hz : L *ᵥ z = 0) (k : Fin n) : e k * (Uᵀ *ᵥ z) k = 0 := by
  have h1 : Uᵀ *ᵥ (L *ᵥ z) = Matrix.diagonal e *ᵥ (Uᵀ *ᵥ z) := by
    rw [lap_eq h]
    unfold spectralOp
    rw [Matrix.mulVec_mulVec, ← Matrix.mul_assoc, ← Matrix.mul_assoc, h.orthonormal, Matrix.one_mul, Matrix.mulVec_mulVec]
  rw [hz, Matrix.mulVec_zero] at h1
  have h2 := congrFun h1 k
  rw [Matrix.mulVec_diagonal] at h2
  exact h2.symm

/-- a function of the Laplacian acts on its kernel as its value at zero -/
theorem spectralOp_ker (h : IsEigenPairs L e U) (φ : ℝ → ℝ) {z : Fin n → ℝ} (hz : L *ᵥ z = 0) : spectralOp U (fun k => φ (e k)) *ᵥ z = φ 0 • z := by
  have h1 : spectralOp U (fun k => φ (e k)) *ᵥ z = U *ᵥ fun k => φ (e k) * (Uᵀ *ᵥ z) k := by
    unfold spectralOp
    rw [← Matrix.mulVec_mulVec, ← Matrix.mulVec_mulVec]
    refine congrArg (U *ᵥ ·) ?_
    funext k
    rw [Matrix.mulVec_diagonal]
  have h2 : (fun k => φ (e k) * (Uᵀ *ᵥ z) k) = φ 0 • (Uᵀ *ᵥ z) := by
    funext k
    rw [Pi.smul_apply, smul_eq_mul]
    rcases mul_eq_zero.1 (coord_ker h hz k) with h0 | h0
    · rw [h0]
    · rw [h0, mul_zero, mul_zero]
  rw [h1, h2, Matrix.mulVec_smul, Matrix.mulVec_mulVec, mul_eq_one_comm.1 h.orthonormal, Matrix.one_mulVec]

theorem op_ker (h : IsEigenPairs L e U) (t : ℝ) {z : Fin n → ℝ} (hz : L *ᵥ z = 0) : op e U t *ᵥ z = z := by
  have := spectralOp_ker h (fun x => exp (-(t * x))) hz
  simp only [mul_zero, neg_zero, exp_zero, one_smul] at this
  exact this

/-- the heat equation -/
theorem op_deriv (h : IsEigenPairs L e U) (x : Fin n → ℝ) (t : ℝ) : HasDerivAt (fun t => op e U t *ᵥ x) (-(L *ᵥ (op e U t *ᵥ x))) t := by
  have hLop : L * op e U t = spectralOp U fun k => e k * exp (-(t * e k)) := by
    rw [lap_eq h]
    unfold op
    rw [spectralOp_mul h.orthonormal]
  rw [hasDerivAt_pi]
  intro v
  rw [Matrix.mulVec_mulVec, hLop, Pi.neg_apply]
  simp only [op, Matrix.mulVec, dotProduct, spectralOp_apply]
  rw [← Finset.sum_neg_distrib]
  refine HasDerivAt.fun_sum fun w _ => ?_
  rw [← neg_mul, ← Finset.sum_neg_distrib]
  refine HasDerivAt.mul_const ?_ _
  refine HasDerivAt.fun_sum fun k _ => ?_
  have h1 : HasDerivAt (fun t => -(t * e k)) (-(1 * e k)) t := ((hasDerivAt_id t).mul_const (e k)).neg
  have h2 := ((h1.exp.const_mul (U v k)).mul_const (U w k))
  refine h2.congr_deriv ?_
  ring

theorem op_entry_deriv (h : IsEigenPairs L e U) (i j : Fin n) (t : ℝ) :
    HasDerivAt (fun t => op e U t i j) (-∑ w, L i w * op e U t w j) t := by
  have h1 := (hasDerivAt_pi.1 (op_deriv h (Pi.single j 1) t)) i
  simp only [Matrix.mulVec_single_one, Matrix.col_apply, Pi.neg_apply] at h1
  exact h1

/-- entries of the diagonal are positive -/
theorem op_diag_pos (h : IsEigenPairs L e U) (t : ℝ) (i : Fin n) : 0 < op e U t i i := by
  unfold op
  rw [spectralOp_apply]
  have h1 : ∑ k, U i k * U i k = 1 := by
    have h0 : U * Uᵀ = 1 := mul_eq_one_comm.1 h.orthonormal
    have := congrFun (congrFun h0 i) i
    rw [Matrix.mul_apply, Matrix.one_apply_eq] at this
    exact this
  obtain ⟨k, -, hk⟩ : ∃ k ∈ Finset.univ, U i k * U i k ≠ 0 := Finset.exists_ne_zero_of_sum_ne_zero (by rw [h1]; exact one_ne_zero)
  refine Finset.sum_pos' (fun k _ => ?_) ⟨k, Finset.mem_univ k, ?_⟩
  · nlinarith [mul_self_nonneg (U i k), exp_pos (-(t * e k))]
  · have : 0 < U i k * U i k := lt_of_le_of_ne (mul_self_nonneg _) (Ne.symm hk)
    nlinarith [mul_pos this (exp_pos (-(t * e k)))]

/-- **Instantaneous propagation**: on a connected support every entry is positive. -/
theorem op_pos (h : IsEigenPairs L e U) (hL : ∀ i j, i ≠ j → L i j ≤ 0) {t : ℝ} (ht : 0 < t) {i j : Fin n}
    (hij : Relation.ReflTransGen (fun a b => L a b ≠ 0) i j) : 0 < op e U t i j := by
  have hnn : ∀ {t : ℝ}, 0 ≤ t → ∀ v w, 0 ≤ op e U t v w := fun ht v w => heat_nonneg h hL ht v w
  -- a zero entry propagates to earlier times
  have back : ∀ {i : Fin n} {a b : ℝ}, 0 ≤ b → b ≤ a → op e U a i j = 0 → op e U b i j = 0 := by
    intro i a b hb hba h0
    have h1 : op e U a i j = ∑ w, op e U (a - b) i w * op e U b w j := by
      rw [show a = (a - b) + b by ring, op_add h, Matrix.mul_apply]
      simp
    rw [h1] at h0
    have h2 := (Finset.sum_eq_zero_iff_of_nonneg fun w _ => mul_nonneg (hnn (by linarith) i w) (hnn hb w j)).1 h0 i (Finset.mem_univ i)
    exact (mul_eq_zero.1 h2).resolve_left (op_diag_pos h _ i).ne'
  -- and to neighbours
  have nb : ∀ {i w : Fin n} {a : ℝ}, 0 < a → op e U a i j = 0 → L i w ≠ 0 → op e U (a / 2) w j = 0 := by
    intro i w a ha h0 hw
    by_cases hiw : i = w
    · subst hiw
      exact back (by linarith) (by linarith) h0
    have hd := op_entry_deriv h i j (a / 2)
    have hev : (fun t => op e U t i j) =ᶠ[𝓝 (a / 2)] fun _ => 0 := by
      filter_upwards [Ioo_mem_nhds (a := 0) (b := a) (by linarith) (by linarith)] with b hb
      exact back hb.1.le hb.2.le h0
    have hz : -∑ w, L i w * op e U (a / 2) w j = 0 := (hd.congr_of_eventuallyEq hev.symm).unique (hasDerivAt_const _ _)
    have h3 : ∑ w, -(L i w * op e U (a / 2) w j) = 0 := by rw [Finset.sum_neg_distrib]; exact hz
    have h4 : ∀ w ∈ Finset.univ, 0 ≤ -(L i w * op e U (a / 2) w j) := by
      intro w _
      by_cases hiw : i = w
      · subst hiw
        rw [back (a := a) (by linarith) (by linarith) h0]
        simp
      · have := mul_nonneg (neg_nonneg.2 (hL i w hiw)) (hnn (by linarith : (0 : ℝ) ≤ a / 2) w j)
        linarith
    have h5 := (Finset.sum_eq_zero_iff_of_nonneg h4).1 h3 w (Finset.mem_univ w)
    rw [neg_eq_zero] at h5
    exact (mul_eq_zero.1 h5).resolve_left hw
  refine lt_of_le_of_ne (hnn ht.le i j) fun h0 => ?_
  have key : ∀ i, Relation.ReflTransGen (fun a b => L a b ≠ 0) i j → ∀ t, 0 < t → op e U t i j ≠ 0 := by
    intro i hi
    induction hi using Relation.ReflTransGen.head_induction_on with
    | refl => exact fun t _ => (op_diag_pos h t j).ne'
    | head hab _ ih => exact fun t ht h0 => ih (t / 2) (by linarith) (nb ht h0 hab)
  exact key i hij t ht h0.symm

/-- A matrix with nonnegative entries whose rows and columns sum to one does not increase the sum of a convex function of the values (Jensen). -/
theorem convex_sum {K : Matrix (Fin n) (Fin n) ℝ} (hK : ∀ i j, 0 ≤ K i j) (hr : ∀ i, ∑ j, K i j = 1) (hc : ∀ j, ∑ i, K i j = 1)
    {φ : ℝ → ℝ} {D : Set ℝ} (hφ : ConvexOn ℝ D φ) (x : Fin n → ℝ) (hx : ∀ v, x v ∈ D) : ∑ v, φ ((K *ᵥ x) v) ≤ ∑ v, φ (x v) := by
  calc ∑ v, φ ((K *ᵥ x) v) ≤ ∑ v, ∑ w, K v w * φ (x w) := by
        refine Finset.sum_le_sum fun v _ => ?_
        have := hφ.map_sum_le (t := Finset.univ) (w := fun w => K v w) (p := x) (fun w _ => hK v w) (hr v) fun w _ => hx w
        simp only [smul_eq_mul] at this
        exact this
    _ = ∑ w, (∑ v, K v w) * φ (x w) := by
        rw [Finset.sum_comm]
        exact Finset.sum_congr rfl fun w _ => (Finset.sum_mul _ _ _).symm
    _ = _ := by simp [hc]

/-- `exp(-t L) x` converges to the projection on the kernel of `L`. -/
theorem op_lim (he : ∀ k, 0 ≤ e k) (x : Fin n → ℝ) :
    Tendsto (fun t => op e U t *ᵥ x) atTop (𝓝 (spectralOp U (fun k => if e k = 0 then 1 else 0) *ᵥ x)) := by
  rw [tendsto_pi_nhds]
  intro v
  simp only [op, Matrix.mulVec, dotProduct, spectralOp_apply]
  refine tendsto_finset_sum _ fun w _ => Tendsto.mul_const _ (tendsto_finset_sum _ fun k _ => Tendsto.mul_const _ (Tendsto.const_mul _ ?_))
  by_cases h0 : e k = 0
  · simp [h0]
  · rw [if_neg h0]
    have hk : 0 < e k := lt_of_le_of_ne (he k) (Ne.symm h0)
    exact tendsto_exp_neg_atTop_nhds_zero.comp (tendsto_id.atTop_mul_const hk)

/-- the projection on the kernel of the Laplacian of a graph takes the mean of each component -/
theorem proj_mean {M : Matrix (Fin n) (Fin n) ℝ} (hM : NonnegW M) (h : IsEigenPairs (combLap M) e U) (x : Fin n → ℝ) (i : Fin n) [DecidablePred (Linked M i)] :
    (spectralOp U (fun k => if e k = 0 then 1 else 0) *ᵥ x) i = (∑ j with Linked M i j, x j) / (Finset.univ.filter fun j => Linked M i j).card := by
  set P := spectralOp U (fun k => if e k = 0 then (1 : ℝ) else 0) with hP
  set w := P *ᵥ x with hw
  have hLP : combLap M * P = 0 := by
    rw [lap_eq h, hP, spectralOp_mul h.orthonormal]
    have : (fun j => e j * if e j = 0 then (1 : ℝ) else 0) = fun _ => 0 := by
      funext j
      split <;> simp_all
    rw [this]
    ext a b
    simp [spectralOp_apply]
  have hw0 : combLap M *ᵥ w = 0 := by rw [hw, Matrix.mulVec_mulVec, hLP, Matrix.zero_mulVec]
  have hconst : ∀ j, Linked M i j → w j = w i := fun j hj => (quad_zero_linked hM (by unfold smoothness; rw [hw0, dotProduct_zero]) hj).symm
  let c : Fin n → ℝ := fun j => if Linked M i j then 1 else 0
  have hc0 : combLap M *ᵥ c = 0 := by
    funext a
    rw [combLap_mulVec]
    refine Finset.sum_eq_zero fun b _ => ?_
    by_cases hab : M a b ≠ 0 ∨ M b a ≠ 0
    · have : Linked M i a ↔ Linked M i b := ⟨fun h => h.tail hab, fun h => h.tail hab.symm⟩
      simp [c, this]
    · push Not at hab
      simp [wsym, hab.1, hab.2]
  have hPc : P *ᵥ c = c := by
    have := spectralOp_ker h (fun x => if x = 0 then (1 : ℝ) else 0) hc0
    simp only [if_true, one_smul] at this
    exact this
  have hdot : c ⬝ᵥ w = c ⬝ᵥ x := by
    rw [hw, Matrix.dotProduct_mulVec, ← Matrix.mulVec_transpose, hP, spectralOp_symm, ← hP, hPc]
  have h1 : c ⬝ᵥ w = (Finset.univ.filter fun j => Linked M i j).card * w i := by
    simp only [dotProduct, c, ite_mul, one_mul, zero_mul]
    rw [← Finset.sum_filter, Finset.sum_congr rfl fun j hj => hconst j (Finset.mem_filter.1 hj).2, Finset.sum_const, nsmul_eq_mul]
  have h2 : c ⬝ᵥ x = ∑ j with Linked M i j, x j := by
    simp only [dotProduct, c, ite_mul, one_mul, zero_mul]
    rw [← Finset.sum_filter]
  have hcard : ((Finset.univ.filter fun j => Linked M i j).card : ℝ) ≠ 0 := by
    have : i ∈ Finset.univ.filter fun j => Linked M i j := Finset.mem_filter.2 ⟨Finset.mem_univ i, Relation.ReflTransGen.refl⟩
    exact_mod_cast (Finset.card_pos.2 ⟨i, this⟩).ne'
  rw [eq_div_iff hcard, ← h2, ← hdot, h1, mul_comm]

end PyGSP.Heat
