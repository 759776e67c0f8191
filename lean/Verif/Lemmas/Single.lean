import Verif.Props.Tight
import Mathlib.Analysis.SpecialFunctions.Exponential

/-! # Exact filtering by one filter -/

namespace PyGSP

open Matrix Spec GState Real

variable {n : ℕ}

/-- After any history, on a graph with non-negative weights whose cached basis (if any) is complete: exact filtering with
one kernel acts as `U diag(y) Uᵀ`, where `y` are the values of the kernel at the eigenvalues. -/
theorem single_setup {S : Solvers n} (hS : Sound S) {g : Graph n ℝ} (hg : g.Built) (hist : List (Op n)) {s : GState n}
    (hs : s = runAll S hist (GState.ofGraph g)) (hW : NonnegW g.W.dense) (hn : 2 ≤ n) (hk : Known s.lapType)
    (hcomplete : ∀ b, s.basis = some b → b.k = n) :
    ∃ (e : Fin n → ℝ) (U : Matrix (Fin n) (Fin n) ℝ), IsEigenPairs s.L e U ∧ (∀ j, 0 ≤ e j) ∧
      (s.getBasis S).1 = .ok (some ⟨n, e, U⟩) ∧
      ∀ (k : Kernel) (y : Fin n → ℝ), k n e = .ok y → ∀ (order : ℕ) (x : Fin n → ℝ), ∀ st,
        (st = s ∨ st = (s.getBasis S).2) →
        (Bank.ofArg (.one k)).filter S (Arr.of1 x) .exact order st =
          (.ok (Arr.of1 (spectralOp U y *ᵥ x)), (s.getBasis S).2) := by
  obtain ⟨b, hb, hbk, he⟩ := GState.complete_basis hS hg hist hs hW (by omega) hk hcomplete
  obtain ⟨hi, hWs, -⟩ := reach_inv hS hg hist
  rw [← hs] at hi hWs
  have hW2 : NonnegW s.W.dense := by rw [hWs]; exact hW
  have hpsd := hi.psd hW2
  obtain ⟨k, e, U⟩ := b
  simp only at hbk
  subst hbk
  refine ⟨e, U, he, fun j => eig_nonneg hpsd (he.isEigenvalue j), hb, ?_⟩
  intro k y hy order x st hst
  have hev : (Bank.ofArg (.one k)).evaluate e = .ok fun _ => y := by
    unfold Bank.evaluate
    rw [seqFin_ok]
    intro i
    have : i = ⟨0, Nat.one_pos⟩ := Fin.ext (Nat.lt_one_iff.1 i.2)
    rw [this]; exact hy
  have hst2 := getBasis_stored (getBasis_split hb)
  have hops : (Bank.ofArg (.one k)).ops S .exact order st = (.ok fun _ => spectralOp U y, (s.getBasis S).2) := by
    rcases hst with rfl | rfl
    · exact Bank.ops_exact_intro order (getBasis_split hb) rfl hev
    · exact Bank.ops_exact_intro order hst2.2 rfl hev
  rw [Bank.filter_eq, parse_of1]
  simp only [hops]
  refine congrArg (fun t => (Except.ok t, (s.getBasis S).2)) ?_
  exact (C28_shapes (by omega) _).2.2.2 rfl rfl

theorem spectralOp_apply {k : ℕ} (U : Matrix (Fin n) (Fin k) ℝ) (h : Fin k → ℝ) (v w : Fin n) :
    spectralOp U h v w = ∑ j, U v j * h j * U w j := by
  unfold spectralOp
  rw [Matrix.mul_apply]
  simp only [Matrix.mul_diagonal, Matrix.transpose_apply]

/-- the combinatorial Laplacian of the current state -/
theorem L_combinatorial {S : Solvers n} (hS : Sound S) {g : Graph n ℝ} (hg : g.Built) (hist : List (Op n)) {s : GState n}
    (hs : s = runAll S hist (GState.ofGraph g)) (hc : s.lapType = .combinatorial) : s.L = combLap g.W.dense := by
  obtain ⟨hi, hWs, -⟩ := reach_inv hS hg hist
  rw [← hs] at hi hWs
  obtain ⟨lt, hlk, hL, hlt⟩ := hi.lap
  have : lt = .combinatorial := by
    rw [hlt (by rw [hc]; exact .inl rfl), hc]
  rw [this, hWs, laplacian_comb] at hL
  exact (Except.ok.inj hL).symm

/-- an eigenvector of a combinatorial Laplacian for a non-zero eigenvalue sums to zero -/
theorem eigvec_sum {M : Matrix (Fin n) (Fin n) ℝ} {e : Fin n → ℝ} {U : Matrix (Fin n) (Fin n) ℝ}
    (he : IsEigenPairs (combLap M) e U) (j : Fin n) : e j * ∑ v, U v j = 0 := by
  have h1 : ∀ v, ∑ w, combLap M v w * U w j = U v j * e j := by
    intro v
    have := congrFun (congrFun he.eig v) j
    rw [Matrix.mul_apply, Matrix.mul_diagonal] at this
    exact this
  have h2 : ∀ w, ∑ v, combLap M v w = 0 := by
    intro w
    have := combLap_mulVec M (fun _ => 1) w
    simp only [sub_self, mul_zero, Finset.sum_const_zero, Matrix.mulVec, dotProduct, mul_one] at this
    rw [← this]
    exact Finset.sum_congr rfl fun v _ => combLap_symm M v w
  calc e j * ∑ v, U v j = ∑ v, U v j * e j := by rw [Finset.mul_sum]; exact Finset.sum_congr rfl fun v _ => mul_comm _ _
    _ = ∑ v, ∑ w, combLap M v w * U w j := Finset.sum_congr rfl fun v _ => (h1 v).symm
    _ = ∑ w, ∑ v, combLap M v w * U w j := Finset.sum_comm
    _ = 0 := Finset.sum_eq_zero fun w _ => by rw [← Finset.sum_mul, h2 w, zero_mul]

/-- exact filtering multiplies the sum of the signal by the value of the kernel at 0 -/
theorem spectralOp_mass {M : Matrix (Fin n) (Fin n) ℝ} {e : Fin n → ℝ} {U : Matrix (Fin n) (Fin n) ℝ}
    (he : IsEigenPairs (combLap M) e U) (g : ℝ → ℝ) (x : Fin n → ℝ) :
    ∑ v, (spectralOp U (fun j => g (e j)) *ᵥ x) v = g 0 * ∑ v, x v := by
  have h1 : ∀ j, g (e j) * ∑ v, U v j = g 0 * ∑ v, U v j := by
    intro j
    rcases mul_eq_zero.1 (eigvec_sum he j) with h | h
    · rw [h]
    · rw [h]; ring
  have h2 : ∀ h : Fin n → ℝ, ∑ v, (spectralOp U h *ᵥ x) v = ∑ j, (h j * ∑ v, U v j) * ∑ w, U w j * x w := by
    intro h
    simp only [Matrix.mulVec, dotProduct, spectralOp_apply, Finset.sum_mul, Finset.mul_sum]
    rw [Finset.sum_comm]
    calc _ = ∑ w, ∑ v, ∑ j, U v j * h j * U w j * x w := rfl
      _ = ∑ w, ∑ j, ∑ v, U v j * h j * U w j * x w := Finset.sum_congr rfl fun w _ => Finset.sum_comm
      _ = ∑ j, ∑ w, ∑ v, U v j * h j * U w j * x w := Finset.sum_comm
      _ = _ := Finset.sum_congr rfl fun j _ => Finset.sum_congr rfl fun w _ => Finset.sum_congr rfl fun v _ => by ring
  rw [h2]
  simp only [h1]
  have h3 := h2 fun _ => 1
  rw [spectralOp_one he.orthonormal, Matrix.one_mulVec] at h3
  rw [h3, Finset.mul_sum]
  exact Finset.sum_congr rfl fun j _ => by ring

/-- powers -/
theorem spectralOp_pow {U : Matrix (Fin n) (Fin n) ℝ} (ho : Uᵀ * U = 1) (h : Fin n → ℝ) (k : ℕ) :
    spectralOp U h ^ k = spectralOp U fun j => h j ^ k := by
  induction k with
  | zero => simp only [pow_zero]; exact (spectralOp_one ho).symm
  | succ k ih => rw [pow_succ, ih, spectralOp_mul ho]; congr 1

/-- **Positivity of the heat semigroup**: `U diag(exp(-t e)) Uᵀ` has no negative entry when the off-diagonal entries of
the Laplacian are not positive. -/
theorem heat_nonneg {L : Matrix (Fin n) (Fin n) ℝ} {e : Fin n → ℝ} {U : Matrix (Fin n) (Fin n) ℝ}
    (he : IsEigenPairs L e U) (hL : ∀ i j, i ≠ j → L i j ≤ 0) {t : ℝ} (ht : 0 ≤ t) (v w : Fin n) :
    0 ≤ spectralOp U (fun j => exp (-(t * e j))) v w := by
  obtain ⟨c, hc⟩ : ∃ c : ℝ, ∀ i, L i i ≤ c := by
    refine ⟨∑ i, |L i i|, fun i => (le_abs_self _).trans ?_⟩
    exact Finset.single_le_sum (f := fun i => |L i i|) (fun i _ => abs_nonneg _) (Finset.mem_univ i)
  have hUU : U * Uᵀ = 1 := mul_eq_one_comm.1 he.orthonormal
  have hLU : L = spectralOp U e := by
    unfold spectralOp
    rw [← he.eig, mul_assoc, hUU, mul_one]
  have hM : c • (1 : Matrix (Fin n) (Fin n) ℝ) - L = spectralOp U fun j => c - e j := by
    rw [← spectralOp_one he.orthonormal, hLU]
    ext a b
    simp only [Matrix.sub_apply, Matrix.smul_apply, spectralOp_apply, smul_eq_mul, Finset.mul_sum]
    rw [← Finset.sum_sub_distrib]
    exact Finset.sum_congr rfl fun j _ => by ring
  have hMn : ∀ k a b, 0 ≤ ((c • (1 : Matrix (Fin n) (Fin n) ℝ) - L) ^ k) a b := by
    have h1 : ∀ a b, 0 ≤ (c • (1 : Matrix (Fin n) (Fin n) ℝ) - L) a b := by
      intro a b
      simp only [Matrix.sub_apply, Matrix.smul_apply, smul_eq_mul, Matrix.one_apply]
      by_cases hab : a = b
      · subst hab; simp; exact hc a
      · rw [if_neg hab]; have := hL a b hab; linarith
    intro k
    induction k with
    | zero =>
      intro a b
      rw [pow_zero, Matrix.one_apply]
      split <;> norm_num
    | succ k ih =>
      intro a b
      rw [pow_succ, Matrix.mul_apply]
      exact Finset.sum_nonneg fun j _ => mul_nonneg (ih a j) (h1 j b)
  have hsum : HasSum (fun k : ℕ => exp (-(t * c)) * (t ^ k / k.factorial * ((c • (1 : Matrix (Fin n) (Fin n) ℝ) - L) ^ k) v w))
      (spectralOp U (fun j => exp (-(t * e j))) v w) := by
    rw [spectralOp_apply]
    simp only [hM, spectralOp_pow he.orthonormal, spectralOp_apply, Finset.mul_sum]
    refine hasSum_sum fun j _ => ?_
    have h2 : HasSum (fun k : ℕ => (t * (c - e j)) ^ k / k.factorial) (exp (t * (c - e j))) := by
      rw [Real.exp_eq_exp_ℝ]
      exact NormedSpace.expSeries_div_hasSum_exp (t * (c - e j))
    have h3 := h2.mul_left (exp (-(t * c)) * (U v j * U w j))
    have e1 : exp (-(t * c)) * (U v j * U w j) * exp (t * (c - e j)) = U v j * exp (-(t * e j)) * U w j := by
      have : exp (-(t * e j)) = exp (-(t * c)) * exp (t * (c - e j)) := by rw [← exp_add]; congr 1; ring
      rw [this]; ring
    rw [e1] at h3
    refine h3.congr_fun fun k => ?_
    rw [mul_pow]; ring
  refine hsum.nonneg fun k => ?_
  have := hMn k v w
  positivity

end PyGSP
