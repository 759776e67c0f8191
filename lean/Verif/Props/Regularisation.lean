import Verif.Props.Learning
import Verif.Props.Simplex
import Verif.Props.Frequency
import Verif.Props.SparsifyTail

/-!
# C120: what the parameter `tau` of `regression_tikhonov` does
-/

namespace PyGSP

open Matrix Spec GState Learning

variable {n : ℕ}

/-- The sum of the squared differences to the measurements. -/
noncomputable def Spec.misfit (m : Fin n → Bool) (y x : Fin n → ℝ) : ℝ := ∑ v, if m v then (x v - y v) ^ 2 else 0

/-- The mean of the measurements. -/
noncomputable def Spec.meanLabel (m : Fin n → Bool) (y : Fin n → ℝ) : ℝ := (∑ v, if m v then y v else 0) / (Finset.univ.filter fun v => m v = true).card

variable {S : Solvers n} {g : Graph n ℝ} {s : GState n} {e : Fin n → ℝ} {U : Matrix (Fin n) (Fin n) ℝ}

theorem ready_lap (h : Ready S g s) : s.Lᵀ = s.L ∧ PSD s.L := by
  obtain ⟨hist, hs⟩ := h.reached
  obtain ⟨hi, hWs, -⟩ := reach_inv h.sound h.built hist
  rw [← hs] at hi hWs
  have hW2 : NonnegW s.W.dense := by
    have : s.W = g.W := hWs
    rw [this]; exact h.nonneg
  refine ⟨?_, hi.psd hW2⟩
  obtain ⟨lt, -, h, -⟩ := hi.lap
  ext i j
  exact laplacian_symm _ _ _ h j i

variable {cg : Matrix (Fin n) (Fin n) ℝ → (Fin n → ℝ) → Fin n → ℝ} {b b' : Bool} {m : Fin n → Bool} {y y' x x' : Fin n → ℝ} {tau tau' : ℝ}

theorem normal_eq (h : Ready S g s) (hcg : ExactCG cg) (ht : 0 < tau) (hx : regression1 cg b s.L y m tau = .ok x) :
    penalised s.L m tau *ᵥ x = mask m y := by
  obtain ⟨hsym, hpsd⟩ := ready_lap h
  unfold regression1 at hx
  rw [if_pos ht, dif_pos rfl] at hx
  rw [← Except.ok.inj hx]
  exact hcg _ _ (penalised_symm hsym tau) (penalised_psd hpsd ht) (penalised_consistent hsym hpsd ht y)

theorem is_min (h : Ready S g s) (hcg : ExactCG cg) (ht : 0 < tau) (hx : regression1 cg b s.L y m tau = .ok x) (z : Fin n → ℝ) :
    misfit m y x + tau * smoothness s.L x ≤ misfit m y z + tau * smoothness s.L z := by
  obtain ⟨hsym, hpsd⟩ := ready_lap h
  have := objective_eq hsym (normal_eq h hcg ht hx) z
  have h1 : 0 ≤ ∑ v, if m v then (z v - x v) ^ 2 else 0 := Finset.sum_nonneg fun v _ => by split <;> positivity
  have h2 : 0 ≤ tau * smoothness s.L (z - x) := mul_nonneg ht.le (hpsd (z - x))
  unfold objective at this
  unfold misfit
  linarith

/-- **C120** A larger `tau` gives a smoother result that is farther from the measurements. -/
theorem C120_tradeoff (h : Ready S g s) (hcg : ExactCG cg) (ht : 0 < tau) (htt : tau < tau') (hx : regression1 cg b s.L y m tau = .ok x)
    (hx' : regression1 cg b' s.L y m tau' = .ok x') : smoothness s.L x' ≤ smoothness s.L x ∧ misfit m y x ≤ misfit m y x' := by
  have h1 := is_min h hcg ht hx x'
  have h2 := is_min h hcg (ht.trans htt) hx' x
  have h3 : smoothness s.L x' ≤ smoothness s.L x := by nlinarith
  refine ⟨h3, ?_⟩
  nlinarith

/-- the result of `tau <= 0` with float measurements -/
theorem interpolation_spec (ht : tau ≤ 0) (hx : regression1 cg false s.L y m tau = .ok x) :
    (∀ v, m v = true → x v = y v) ∧ ∀ v, m v = false → (s.L *ᵥ x) v = 0 := by
  rw [regression1_nonpos _ _ _ _ _ ht] at hx
  rcases hp : solveUnlabelled s.L m y with e | part
  · rw [hp] at hx; cases hx
  · rw [hp] at hx
    obtain rfl := Except.ok.inj hx
    exact ⟨fun b hb => by simp [fill, hb], (solveUnlabelled_ok hp).2⟩

/-- **C120** Any `tau` gives a smoother result than the interpolation, and the squared differences to the measurements add up to at most
`tau` times the smoothness of the interpolation. -/
theorem C120_vs_interpolation (h : Ready S g s) (hcg : ExactCG cg) (ht : 0 < tau) (ht' : tau' ≤ 0) (hx : regression1 cg b s.L y m tau = .ok x)
    (hx' : regression1 cg false s.L y m tau' = .ok x') : smoothness s.L x ≤ smoothness s.L x' ∧ misfit m y x ≤ tau * smoothness s.L x' := by
  have h1 := is_min h hcg ht hx x'
  obtain ⟨h2, -⟩ := interpolation_spec ht' hx'
  have h3 : misfit m y x' = 0 := by
    unfold misfit
    exact Finset.sum_eq_zero fun v _ => by
      by_cases hv : m v = true
      · rw [if_pos hv, h2 v hv]; ring
      · rw [if_neg hv]
  have h4 : 0 ≤ misfit m y x := Finset.sum_nonneg fun v _ => by split <;> positivity
  have h5 : 0 ≤ tau * smoothness s.L x := mul_nonneg ht.le ((ready_lap h).2 x)
  rw [h3, zero_add] at h1
  exact ⟨le_of_mul_le_mul_left (by linarith) ht, by linarith⟩

/-- **C120** For small `tau` the result is close to the interpolation, at every vertex: within `sqrt(tau E)`, where `E` is the smoothness
of the interpolation. -/
theorem C120_small_tau (h : Ready S g s) (hl : s.lapType = .combinatorial) (ha : Anchored g.W.dense m) (hcg : ExactCG cg) (ht : 0 < tau) (ht' : tau' ≤ 0)
    (hx : regression1 cg b s.L y m tau = .ok x) (hx' : regression1 cg false s.L y m tau' = .ok x') (v : Fin n) :
    |x v - x' v| ≤ Real.sqrt (tau * smoothness s.L x') := by
  have hL := h.comb hl
  obtain ⟨-, h1⟩ := C120_vs_interpolation h hcg ht ht' hx hx'
  obtain ⟨h2, h3⟩ := interpolation_spec ht' hx'
  have hne := normal_eq h hcg ht hx
  have hlab : ∀ w, m w = true → |x w - x' w| ≤ Real.sqrt (tau * smoothness s.L x') := by
    intro w hw
    refine Real.abs_le_sqrt (le_trans ?_ h1)
    rw [h2 w hw]
    have := Finset.single_le_sum (f := fun v => if m v then (x v - y v) ^ 2 else 0) (fun v _ => by split <;> positivity) (Finset.mem_univ w)
    simpa [hw, misfit] using this
  have hharm : ∀ w, ¬ m w = true → (combLap g.W.dense *ᵥ (x - x')) w = 0 := by
    intro w hw
    have hw' : m w = false := by simpa using hw
    have e1 := congrFun hne w
    rw [penalised_mulVec, hL] at e1
    simp only [mask, hw', Bool.false_eq_true, if_false, zero_add] at e1
    have e2 := h3 w hw'
    rw [hL] at e2
    rw [Matrix.mulVec_sub, Pi.sub_apply, e2, (mul_eq_zero.1 e1).resolve_left ht.ne', sub_zero]
  obtain ⟨c, hc, h4⟩ := max_principle h.nonneg (fun w => m w = true) ha (x - x') (fun w hw => (hharm w hw).le) v
  obtain ⟨c', hc', h5⟩ := min_principle h.nonneg (fun w => m w = true) ha (x - x') (fun w hw => (hharm w hw).ge) v
  simp only [Pi.sub_apply] at h4 h5
  rw [abs_le]
  exact ⟨by linarith [(abs_le.1 (hlab c' hc')).1], by linarith [(abs_le.1 (hlab c hc)).2]⟩

/-- **C120** The mean over the labelled vertices is that of the measurements, and for large `tau` the result is close to this mean,
everywhere: the squared difference is at most the largest resistance times the squared spread of the measurements over `tau`. -/
theorem C120_large_tau (h : Ready S g s) (hl : s.lapType = .combinatorial) (hcon : Connected g.W.dense) (hm : ∃ v, m v = true) (hcg : ExactCG cg) (ht : 0 < tau)
    (hx : regression1 cg b s.L y m tau = .ok x) {R : Fin n → Fin n → ℝ} (hR : ∀ i j, IsResistance g.W.dense i j (R i j)) {r : ℝ} (hr : ∀ i j, R i j ≤ r) :
    meanLabel m x = meanLabel m y ∧ (∀ i j, (x i - x j) ^ 2 ≤ R i j * misfit m y (fun _ => meanLabel m y) / tau) ∧
      ∀ v, (x v - meanLabel m y) ^ 2 ≤ r * misfit m y (fun _ => meanLabel m y) / tau := by
  have hL := h.comb hl
  have hne := normal_eq h hcg ht hx
  have hmean : ∑ v, (if m v then x v else 0) = ∑ v, if m v then y v else 0 := by
    have h1 : ∑ v, (penalised s.L m tau *ᵥ x) v = ∑ v, mask m y v := by rw [hne]
    simp only [penalised_mulVec, Finset.sum_add_distrib, ← Finset.mul_sum] at h1
    rw [hL, sum_combLap_mulVec, mul_zero, add_zero] at h1
    exact h1
  have hsm : tau * smoothness s.L x ≤ misfit m y (fun _ => meanLabel m y) := by
    have h1 := is_min h hcg ht hx (fun _ => meanLabel m y)
    have h2 : smoothness s.L (fun _ => meanLabel m y) = 0 := by
      unfold smoothness
      rw [hL, combLap_quad]
      unfold dirichlet
      simp
    have h3 : 0 ≤ misfit m y x := Finset.sum_nonneg fun v _ => by split <;> positivity
    rw [h2] at h1
    linarith
  have hpair : ∀ i j, (x i - x j) ^ 2 ≤ R i j * misfit m y (fun _ => meanLabel m y) / tau := by
    intro i j
    have h1 := Reduction.diff_sq_le h.nonneg (hR i j) x
    have h0 : 0 ≤ R i j := by
      have := C55_metric h.nonneg hcon R hR i j i
      by_cases hij : i = j
      · rw [hij, (C55_metric h.nonneg hcon R hR j j j).1]
      · exact (this.2.2.1 hij).le
    have h2 : smoothness s.L x = dirichlet g.W.dense x := by unfold smoothness; rw [hL, combLap_quad]
    rw [h2] at hsm
    rw [le_div_iff₀ ht]
    calc (x i - x j) ^ 2 * tau ≤ R i j * dirichlet g.W.dense x * tau := mul_le_mul_of_nonneg_right h1 ht.le
      _ = R i j * (tau * dirichlet g.W.dense x) := by ring
      _ ≤ _ := mul_le_mul_of_nonneg_left hsm h0
  have hml : meanLabel m x = meanLabel m y := by unfold meanLabel; rw [hmean]
  refine ⟨hml, hpair, fun v => ?_⟩
  set c : ℝ := ((Finset.univ.filter fun v => m v = true).card : ℝ) with hc
  have hc0 : 0 < c := by
    obtain ⟨w, hw⟩ := hm
    rw [hc]
    exact_mod_cast Finset.card_pos.2 ⟨w, Finset.mem_filter.2 ⟨Finset.mem_univ _, hw⟩⟩
  set V := misfit m y (fun _ => meanLabel m y) with hV
  have hV0 : 0 ≤ V := Finset.sum_nonneg fun v _ => by split <;> positivity
  have h1 : x v - meanLabel m y = (∑ w with m w = true, (x v - x w)) / c := by
    rw [← hml, Finset.sum_sub_distrib, Finset.sum_const, nsmul_eq_mul, ← hc]
    unfold meanLabel
    rw [← hc, Finset.sum_filter]
    field_simp
  have h2 := sq_sum_le_card_mul_sum_sq (s := Finset.univ.filter fun w => m w = true) (f := fun w => x v - x w)
  rw [← hc] at h2
  have h3 : ∑ w with m w = true, (x v - x w) ^ 2 ≤ c * (r * V / tau) := by
    have : ∑ w with m w = true, (x v - x w) ^ 2 ≤ ∑ w with m w = true, r * V / tau := by
      refine Finset.sum_le_sum fun w _ => (hpair v w).trans ?_
      exact div_le_div_of_nonneg_right (mul_le_mul_of_nonneg_right (hr v w) hV0) ht.le
    rwa [Finset.sum_const, nsmul_eq_mul, ← hc] at this
  rw [h1, div_pow, div_le_iff₀ (by positivity)]
  nlinarith

/-- **C120** When every vertex is measured the regression is the filter `1 / (1 + tau lambda)`, and in the Fourier domain the division by
`1 + tau lambda`. -/
theorem C120_filter (h : Ready S g s) (hn : 2 ≤ n) (hb : s.basis = some ⟨n, e, U⟩) (hcg : ExactCG cg) (ht : 0 < tau)
    (hx : regression1 cg b s.L y (fun _ : Fin n => true) tau = .ok x) (order : ℕ) :
    (Bank.ofArg (.one (Kernel.pointwise fun l => 1 / (1 + tau * l)))).filter S (Arr.of1 y) .exact order s = (.ok (Arr.of1 x), s) ∧
    ∃ a c : Fin n → ℝ, s.gft S ⟨n, x⟩ = (.ok ⟨n, a⟩, s) ∧ s.gft S ⟨n, y⟩ = (.ok ⟨n, c⟩, s) ∧ ∀ k, a k = c k / (1 + tau * e k) := by
  obtain ⟨hE, -⟩ := h.pairs hb
  have hUU : U * Uᵀ = 1 := mul_eq_one_comm.1 hE.orthonormal
  have hne := normal_eq h hcg ht hx
  have hev : ∀ k, 0 ≤ e k := fun k => by
    have h1 := Weyl.quad_basis hE (Pi.single k 1)
    have h2 := (ready_lap h).2 (U *ᵥ Pi.single k 1)
    rw [h1] at h2
    simpa [Pi.single_apply, ite_pow] using h2
  have hpos : ∀ k, 1 + tau * e k ≠ 0 := fun k => by have := mul_nonneg ht.le (hev k); linarith
  have hco : ∀ k, (Uᵀ *ᵥ x) k = (Uᵀ *ᵥ y) k / (1 + tau * e k) := by
    intro k
    have h1 : x + tau • (s.L *ᵥ x) = y := by
      funext v
      have := congrFun hne v
      rw [penalised_mulVec] at this
      simpa [mask] using this
    have h2 : (Uᵀ *ᵥ (s.L *ᵥ x)) k = e k * (Uᵀ *ᵥ x) k := by
      have hx' : x = U *ᵥ (Uᵀ *ᵥ x) := by rw [Matrix.mulVec_mulVec, hUU, Matrix.one_mulVec]
      conv_lhs => rw [hx']
      rw [Matrix.mulVec_mulVec _ s.L, hE.eig, ← Matrix.mulVec_mulVec, Matrix.mulVec_mulVec _ Uᵀ, hE.orthonormal, Matrix.one_mulVec, Matrix.mulVec_diagonal]
    rw [eq_div_iff (hpos k), ← h1, Matrix.mulVec_add, Matrix.mulVec_smul]
    simp only [Pi.add_apply, Pi.smul_apply, smul_eq_mul, h2]
    ring
  refine ⟨?_, _, _, gft_of hb x, gft_of hb y, hco⟩
  rw [filter_pointwise h hn hb]
  refine congrArg (fun t => (Except.ok (Arr.of1 t), s)) ?_
  have h3 : (fun k => 1 / (1 + tau * e k) * (Uᵀ *ᵥ y) k) = Uᵀ *ᵥ x := by
    funext k; rw [hco k]; ring
  rw [h3, Matrix.mulVec_mulVec, hUU, Matrix.one_mulVec]

/-- the difference of two results, for any `tau` -/
theorem diff_between (h : Ready S g s) (hl : s.lapType = .combinatorial) (ha : Anchored g.W.dense m) (hcg : ExactCG cg)
    (hx : regression1 cg false s.L y m tau = .ok x) (hx' : regression1 cg false s.L y' m tau = .ok x') (v : Fin n) :
    (∃ c, m c = true ∧ x v - x' v ≤ y c - y' c) ∧ ∃ c, m c = true ∧ y c - y' c ≤ x v - x' v := by
  have hL := h.comb hl
  rcases lt_or_ge 0 tau with ht | ht
  · have h1 := normal_eq h hcg ht hx
    have h2 := normal_eq h hcg ht hx'
    have h3 : penalised (combLap g.W.dense) m tau *ᵥ (x - x') = mask m (y - y') := by
      rw [← hL, Matrix.mulVec_sub, h1, h2]
      funext w
      simp only [mask, Pi.sub_apply]
      split <;> simp
    exact ⟨penalised_le h.nonneg ha ht h3 v, penalised_ge h.nonneg ha ht h3 v⟩
  · obtain ⟨a1, a2⟩ := interpolation_spec ht hx
    obtain ⟨b1, b2⟩ := interpolation_spec ht hx'
    rw [hL] at a2 b2
    have hharm : ∀ w, ¬ m w = true → (combLap g.W.dense *ᵥ (x - x')) w = 0 := by
      intro w hw
      have hw' : m w = false := by simpa using hw
      rw [Matrix.mulVec_sub, Pi.sub_apply, a2 w hw', b2 w hw', sub_self]
    obtain ⟨c, hc, h4⟩ := max_principle h.nonneg (fun w => m w = true) ha (x - x') (fun w hw => (hharm w hw).le) v
    obtain ⟨c', hc', h5⟩ := min_principle h.nonneg (fun w => m w = true) ha (x - x') (fun w hw => (hharm w hw).ge) v
    simp only [Pi.sub_apply, a1 c hc, b1 c hc, a1 c' hc', b1 c' hc'] at h4 h5
    exact ⟨⟨c, hc, h4⟩, c', hc', h5⟩

/-- **C120** Errors in the measurements are not amplified: if they change by at most `ε`, so does the result, at every vertex; larger
measurements give larger results. -/
theorem C120_stable (h : Ready S g s) (hl : s.lapType = .combinatorial) (ha : Anchored g.W.dense m) (hcg : ExactCG cg)
    (hx : regression1 cg false s.L y m tau = .ok x) (hx' : regression1 cg false s.L y' m tau = .ok x') :
    (∀ ε, (∀ c, m c = true → |y c - y' c| ≤ ε) → ∀ v, |x v - x' v| ≤ ε) ∧ ((∀ c, m c = true → y c ≤ y' c) → ∀ v, x v ≤ x' v) := by
  refine ⟨fun ε hε v => ?_, fun hy v => ?_⟩
  · obtain ⟨⟨c, hc, h1⟩, c', hc', h2⟩ := diff_between h hl ha hcg hx hx' v
    rw [abs_le]
    exact ⟨by linarith [(abs_le.1 (hε c' hc')).1], by linarith [(abs_le.1 (hε c hc)).2]⟩
  · obtain ⟨⟨c, hc, h1⟩, -⟩ := diff_between h hl ha hcg hx hx' v
    linarith [hy c hc]

/-- **C120** Changing the unit and the origin of the measurements changes those of the result. -/
theorem C120_affine (h : Ready S g s) (hl : s.lapType = .combinatorial) (ha : Anchored g.W.dense m) (hcg : ExactCG cg) {α β : ℝ}
    (hx : regression1 cg false s.L y m tau = .ok x) (hx' : regression1 cg false s.L (fun v => α * y v + β) m tau = .ok x') (v : Fin n) :
    x' v = α * x v + β := by
  have hL := h.comb hl
  have hconst : ∀ w, (combLap g.W.dense *ᵥ fun u => α * x u + β) w = α * (combLap g.W.dense *ᵥ x) w := by
    intro w
    rw [combLap_mulVec, combLap_mulVec, Finset.mul_sum]
    exact Finset.sum_congr rfl fun u _ => by ring
  rcases lt_or_ge 0 tau with ht | ht
  · have h1 := normal_eq h hcg ht hx
    have h2 := normal_eq h hcg ht hx'
    have h3 : penalised (combLap g.W.dense) m tau *ᵥ (x' - fun u => α * x u + β) = mask m (fun _ => 0) := by
      rw [← hL, Matrix.mulVec_sub, h2]
      funext w
      have h4 := congrFun h1 w
      rw [penalised_mulVec] at h4
      rw [Pi.sub_apply, penalised_mulVec, hL, hconst, ← hL]
      simp only [mask] at h4 ⊢
      split at h4 <;> rename_i hw <;> simp only [hw, if_true, Bool.false_eq_true, if_false] at h4 ⊢ <;> linear_combination (-α) * h4
    obtain ⟨c, -, h5⟩ := penalised_le h.nonneg ha ht h3 v
    obtain ⟨c', -, h6⟩ := penalised_ge h.nonneg ha ht h3 v
    simp only [Pi.sub_apply] at h5 h6
    linarith
  · obtain ⟨a1, a2⟩ := interpolation_spec ht hx
    obtain ⟨b1, b2⟩ := interpolation_spec ht hx'
    rw [hL] at a2 b2
    have hharm : ∀ w, ¬ m w = true → (combLap g.W.dense *ᵥ (x' - fun u => α * x u + β)) w = 0 := by
      intro w hw
      have hw' : m w = false := by simpa using hw
      rw [Matrix.mulVec_sub, Pi.sub_apply, b2 w hw', hconst, a2 w hw', mul_zero, sub_self]
    obtain ⟨c, hc, h4⟩ := max_principle h.nonneg (fun w => m w = true) ha (x' - fun u => α * x u + β) (fun w hw => (hharm w hw).le) v
    obtain ⟨c', hc', h5⟩ := min_principle h.nonneg (fun w => m w = true) ha (x' - fun u => α * x u + β) (fun w hw => (hharm w hw).ge) v
    simp only [Pi.sub_apply, a1 c hc, b1 c hc, a1 c' hc', b1 c' hc'] at h4 h5
    linarith

/-- A reachable case: the path with four vertices, measured at its ends. -/
example : ∃ (g : Graph 4 ℝ) (S : Solvers 4) (s : GState 4) (cg : Matrix (Fin 4) (Fin 4) ℝ → (Fin 4 → ℝ) → Fin 4 → ℝ) (x x' : Fin 4 → ℝ),
    Ready S g s ∧ s.lapType = .combinatorial ∧ Anchored g.W.dense ![true, false, false, true] ∧ Connected g.W.dense ∧ ExactCG cg ∧
    regression1 cg false s.L ![0, 7, 7, 3] ![true, false, false, true] 2 = .ok x ∧
    regression1 cg false s.L ![0, 7, 7, 3] ![true, false, false, true] 0 = .ok x' := by
  obtain ⟨S, g, s, hd, h, hl, -⟩ := exists_ready path4 path4_nonneg (by norm_num)
  obtain ⟨cg, hcg⟩ := exists_cg 4
  obtain ⟨hist, hs⟩ := h.reached
  have ha : Anchored g.W.dense ![true, false, false, true] := fun v => ⟨0, rfl, by rw [hd]; exact path4_connected v 0⟩
  obtain ⟨x, hx, -⟩ := C59_minimises h.sound h.built hist hs h.nonneg hcg false ![0, 7, 7, 3] ![true, false, false, true] (tau := 2) (by norm_num)
  obtain ⟨x', hx', -⟩ := C58_interpolation h.sound h.built hist hs h.nonneg hl cg ![0, 7, 7, 3] ![true, false, false, true] ha ⟨1, rfl⟩ (tau := 0) le_rfl
  exact ⟨g, S, s, cg, x, x', h, hl, ha, by rw [hd]; exact path4_connected, hcg, hx, hx'⟩

end PyGSP
