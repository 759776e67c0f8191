import Verif.Lemmas.ChebError
import Verif.Props.ChebInterp
import Verif.Props.Jackson
import Verif.Props.Diffusion
import Verif.Props.FilterWitness
import Mathlib.Analysis.SpecificLimits.Normed

/-!
# C97: how far Chebyshev filtering is from exact filtering
-/

namespace PyGSP

open Matrix Spec GState Polynomial Real

variable {n : ℕ}

/-! ### interpolation -/

theorem shiftedT_coeff {l : ℝ} (hl : l ≠ 0) (N : ℕ) : (shiftedT l N).coeff N = 2 ^ (N - 1) * (2 / l) ^ N := by
  have h1 : (affine l).natDegree = 1 := by
    unfold affine
    rw [show (1 : ℝ[X]) = C 1 by simp, natDegree_sub_C, natDegree_C_mul_X _ (by positivity)]
  have h2 : (affine l).leadingCoeff = 2 / l := by
    unfold leadingCoeff
    rw [h1]
    simp [affine, coeff_one]
  have h3 : (shiftedT l N).natDegree = N := by
    unfold shiftedT
    rw [natDegree_comp, h1, Chebyshev.natDegree_T]
    simp
  have h4 : (shiftedT l N).leadingCoeff = 2 ^ (N - 1) * (2 / l) ^ N := by
    unfold shiftedT
    rw [leadingCoeff_comp (by rw [h1]; norm_num), h2, Chebyshev.leadingCoeff_T, Chebyshev.natDegree_T]
    simp
  rw [← h4, leadingCoeff, h3]

theorem node_mem {l : ℝ} (hl : 0 < l) (N : ℕ) (j : Fin N) : chebNode l N j ∈ Set.Icc 0 l := by
  refine ⟨chebNode_nonneg hl.le N j, ?_⟩
  have h := eval_affine_node hl.ne' N j
  rw [affine_eval] at h
  have h1 := cos_le_one (chebAngle N j)
  rw [← h] at h1
  have h2 : 2 / l * chebNode l N j ≤ 2 := by linarith
  rw [div_mul_eq_mul_div, div_le_iff₀ hl] at h2
  linarith

theorem shiftedT_abs {l : ℝ} (hl : 0 < l) (N : ℕ) {x : ℝ} (hx : x ∈ Set.Icc 0 l) : |(shiftedT l N).eval x| ≤ 1 := by
  rw [shiftedT_eval]
  refine Chebyshev.abs_eval_T_real_le_one N ?_
  have h1 : 0 ≤ 2 / l * x := by have := hx.1; positivity
  have h2 : 2 / l * x ≤ 2 := by rw [div_mul_eq_mul_div, div_le_iff₀ hl]; linarith [hx.2]
  rw [abs_le]
  constructor <;> linarith

/-- the product of the distances to the nodes -/
theorem node_prod {l : ℝ} (hl : 0 < l) {N : ℕ} (hN : 0 < N) {x : ℝ} (hx : x ∈ Set.Icc 0 l) :
    |∏ j, (x - chebNode l N j)| ≤ 2 * (l / 4) ^ N := by
  have hcd : ContDiff ℝ N fun y => (shiftedT l N).eval y := by simpa using (shiftedT l N).contDiff_aeval (𝕜 := ℝ) N
  obtain ⟨ξ, -, h⟩ := interp_error hcd (p := 0) (by rw [Polynomial.degree_zero]; exact WithBot.bot_lt_coe _) (chebNode_injective hl.ne' N) (node_mem hl N)
    (fun i => by rw [shiftedT_node hl.ne', eval_zero]) hx
  have hder : iteratedDeriv N (fun y => (shiftedT l N).eval y) ξ = N.factorial * (2 ^ (N - 1) * (2 / l) ^ N) := by
    rw [iteratedDeriv_eval]
    have hnd : (derivative^[N] (shiftedT l N)).natDegree = 0 := by
      have := natDegree_iterate_derivative (shiftedT l N) N
      have := natDegree_shiftedT l N
      omega
    simp only
    rw [eq_C_of_natDegree_eq_zero hnd, coeff_iterate_derivative, zero_add, Nat.descFactorial_self, nsmul_eq_mul, eval_C,
      shiftedT_coeff hl.ne']
  have hfac : (N.factorial : ℝ) ≠ 0 := by exact_mod_cast N.factorial_ne_zero
  rw [hder, eval_zero, sub_zero, mul_div_cancel_left₀ _ hfac] at h
  have h1 := shiftedT_abs hl N hx
  rw [h, abs_mul, abs_of_pos (by positivity)] at h1
  have h2 : (2 : ℝ) ^ (N - 1) * (2 / l) ^ N * (2 * (l / 4) ^ N) = 1 := by
    obtain ⟨M, rfl⟩ := Nat.exists_eq_succ_of_ne_zero hN.ne'
    rw [Nat.succ_sub_one, show (2 : ℝ) ^ M * (2 / l) ^ (M + 1) * (2 * (l / 4) ^ (M + 1)) = (2 ^ M * 2) * ((2 / l) ^ (M + 1) * (l / 4) ^ (M + 1)) by ring,
      ← pow_succ, ← mul_pow, ← mul_pow]
    rw [show (2 : ℝ) * (2 / l * (l / 4)) = 1 by field_simp; norm_num, one_pow]
  have h3 : (0 : ℝ) < 2 ^ (N - 1) * (2 / l) ^ N := by positivity
  rw [← h2] at h1
  exact le_of_mul_le_mul_left h1 h3

/-- the interpolation polynomial of a smooth function -/
theorem interp_smooth {l : ℝ} (hl : 0 < l) {m : ℕ} {f F : ℝ → ℝ} (hF : ContDiff ℝ (m + 1 : ℕ) F) (hfF : ∀ x ∈ Set.Icc 0 l, f x = F x) {B : ℝ}
    (hB : ∀ x ∈ Set.Icc 0 l, |iteratedDeriv (m + 1) F x| ≤ B) {p : ℝ[X]} (hp : p.natDegree ≤ m)
    (hv : ∀ j, p.eval (chebNode l (m + 1) j) = f (chebNode l (m + 1) j)) {x : ℝ} (hx : x ∈ Set.Icc 0 l) :
    |p.eval x - f x| ≤ 2 * B * (l / 4) ^ (m + 1) / (m + 1).factorial := by
  have hdeg : p.degree < (m + 1 : ℕ) := degree_le_natDegree.trans_lt (by exact_mod_cast Nat.lt_succ_of_le hp)
  obtain ⟨ξ, hξ, h⟩ := interp_error hF hdeg (chebNode_injective hl.ne' (m + 1)) (node_mem hl (m + 1))
    (fun i => by rw [hv, hfF _ (node_mem hl _ i)]) hx
  rw [abs_sub_comm, hfF x hx, h, abs_mul, abs_div, Nat.abs_cast]
  have h1 := node_prod hl (Nat.succ_pos m) hx
  have h2 := hB ξ hξ
  have h3 : (0 : ℝ) < (m + 1).factorial := by exact_mod_cast (m + 1).factorial_pos
  have h4 : 0 ≤ B := (abs_nonneg _).trans h2
  calc _ ≤ B / (m + 1).factorial * (2 * (l / 4) ^ (m + 1)) := by gcongr
    _ = _ := by ring

/-- the interpolation polynomial at the Chebyshev nodes is bounded by the samples -/
theorem lebesgue {N : ℕ} (y : Fin N → ℝ) (θ : ℝ) : (chebSeries (chebC y) N).eval (cos θ) ^ 2 ≤ 2 * ∑ j, y j ^ 2 := by
  rcases Nat.eq_zero_or_pos N with rfl | hN
  · simp [chebSeries_eval, chebC]
  have hNr : (0 : ℝ) < N := by exact_mod_cast hN
  set c := chebC y with hc
  have pars : c 0 ^ 2 / 2 + ∑ k ∈ Finset.Ico 1 N, c k ^ 2 = 2 / N * ∑ j, y j ^ 2 := by
    have h1 : ∑ j, y j ^ 2 = ∑ j, y j * (c 0 / 2 + ∑ k ∈ Finset.Ico 1 N, c k * cos (k * chebAngle N j)) :=
      Finset.sum_congr rfl fun j _ => by
        have := chebSeries_interp y j
        rw [chebSeries_eval] at this
        rw [this, sq]
    have h2 : ∀ k : ℕ, ∑ j, y j * cos (k * chebAngle N j) = N / 2 * c k := fun k => by
      rw [hc]; unfold chebC; field_simp
    have h3 : ∑ j, y j * (c 0 / 2 + ∑ k ∈ Finset.Ico 1 N, c k * cos (k * chebAngle N j)) =
        c 0 / 2 * (N / 2 * c 0) + ∑ k ∈ Finset.Ico 1 N, c k * (N / 2 * c k) := by
      simp only [← h2, mul_add, Finset.sum_add_distrib, Finset.mul_sum]
      congr 1
      · refine Finset.sum_congr rfl fun j _ => ?_
        simp; ring
      · rw [Finset.sum_comm]
        refine Finset.sum_congr rfl fun k _ => Finset.sum_congr rfl fun j _ => by ring
    rw [h1, h3, mul_add, Finset.mul_sum]
    congr 1
    · field_simp
    · refine Finset.sum_congr rfl fun k _ => ?_
      field_simp
  rw [chebSeries_eval]
  have cs := Finset.sum_mul_sq_le_sq_mul_sq (Finset.range N) (fun k => if k = 0 then c 0 / √2 else c k)
    (fun k => if k = 0 then 1 / √2 else cos (k * θ))
  have s2 : √2 * √2 = 2 := mul_self_sqrt (by norm_num)
  have s2' : √(2 : ℝ) ≠ 0 := by positivity
  have split : ∀ f : ℕ → ℝ, ∑ k ∈ Finset.range N, f k = f 0 + ∑ k ∈ Finset.Ico 1 N, f k := fun f => by
    rw [Finset.range_eq_Ico, Finset.sum_eq_sum_Ico_succ_bot hN]
  have drop : ∀ f g : ℕ → ℝ, ∑ k ∈ Finset.Ico 1 N, (if k = 0 then f k else g k) = ∑ k ∈ Finset.Ico 1 N, g k := fun f g =>
    Finset.sum_congr rfl fun k hk => if_neg (by have := Finset.mem_Ico.1 hk; omega)
  have e1 : ∑ k ∈ Finset.range N, (if k = 0 then c 0 / √2 else c k) * (if k = 0 then 1 / √2 else cos (k * θ)) =
      c 0 / 2 + ∑ k ∈ Finset.Ico 1 N, c k * cos (k * θ) := by
    rw [split]
    congr 1
    · rw [if_pos rfl, if_pos rfl, div_mul_div_comm, s2, mul_one]
    · refine Finset.sum_congr rfl fun k hk => ?_
      have : k ≠ 0 := by have := Finset.mem_Ico.1 hk; omega
      rw [if_neg this, if_neg this]
  have e2 : ∑ k ∈ Finset.range N, (if k = 0 then c 0 / √2 else c k) ^ 2 = 2 / N * ∑ j, y j ^ 2 := by
    rw [split, ← pars]
    congr 1
    · rw [if_pos rfl, div_pow, sq_sqrt (by norm_num)]
    · refine Finset.sum_congr rfl fun k hk => ?_
      rw [if_neg (by have := Finset.mem_Ico.1 hk; omega)]
  have e3 : ∑ k ∈ Finset.range N, (if k = 0 then 1 / √2 else cos (k * θ)) ^ 2 ≤ N := by
    calc _ ≤ ∑ k ∈ Finset.range N, (1 : ℝ) := Finset.sum_le_sum fun k _ => by
          split_ifs
          · rw [div_pow, sq_sqrt (by norm_num)]; norm_num
          · exact cos_sq_le_one _
      _ = N := by simp
  rw [e1, e2] at cs
  refine cs.trans ?_
  have hnn : 0 ≤ ∑ j, y j ^ 2 := Finset.sum_nonneg fun j _ => sq_nonneg _
  calc _ ≤ 2 / N * (∑ j, y j ^ 2) * N := by gcongr
    _ = _ := by field_simp

/-- Interpolation is within `1 + √(2 (m + 1))` of the best approximation by polynomials of degree `m`. -/
theorem interp_best {l : ℝ} (hl : 0 < l) {m : ℕ} {f : ℝ → ℝ} {p r : ℝ[X]} (hp : p.natDegree ≤ m) (hr : r.natDegree ≤ m)
    (hv : ∀ j, p.eval (chebNode l (m + 1) j) = f (chebNode l (m + 1) j)) {E : ℝ} (hE : ∀ x ∈ Set.Icc 0 l, |r.eval x - f x| ≤ E)
    {x : ℝ} (hx : x ∈ Set.Icc 0 l) : |p.eval x - f x| ≤ (1 + √(2 * (m + 1))) * E := by
  have hE0 : 0 ≤ E := (abs_nonneg _).trans (hE x hx)
  have hu := cheb_unique hl.ne' m (fun j => (p - r).eval (chebNode l (m + 1) j)) (p - r) ((natDegree_sub_le _ _).trans (max_le hp hr)) fun j => rfl
  obtain ⟨θ, -, hθ⟩ := exists_angle (lmin := 0) (lmax := l) hl hx.1 hx.2
  rw [zero_add, sub_zero] at hθ
  have hev : (p - r).eval x = (chebSeries (chebC fun j => (p - r).eval (chebNode l (m + 1) j)) (m + 1)).eval (cos θ) := by
    conv_lhs => rw [← hu, ← hθ]
    rw [eval_comp, affine_freq hl]
  have hb := lebesgue (fun j : Fin (m + 1) => (p - r).eval (chebNode l (m + 1) j)) θ
  rw [← hev] at hb
  have hs : ∑ j : Fin (m + 1), (p - r).eval (chebNode l (m + 1) j) ^ 2 ≤ (m + 1) * E ^ 2 := by
    calc _ ≤ ∑ j : Fin (m + 1), E ^ 2 := Finset.sum_le_sum fun j _ => by
          rw [eval_sub, hv]
          have := hE _ (node_mem hl (m + 1) j)
          rw [← sq_abs, abs_sub_comm]
          exact pow_le_pow_left₀ (abs_nonneg _) this 2
      _ = _ := by simp
  have h1 : |(p - r).eval x| ≤ √(2 * (m + 1)) * E := by
    rw [← sqrt_sq hE0, ← sqrt_mul (by positivity), ← sqrt_sq_eq_abs]
    exact sqrt_le_sqrt (hb.trans (by linarith))
  have h2 := hE x hx
  calc |p.eval x - f x| = |(p - r).eval x + (r.eval x - f x)| := by rw [eval_sub]; ring_nf
    _ ≤ |(p - r).eval x| + |r.eval x - f x| := abs_add_le _ _
    _ ≤ _ := by linarith

/-- Jackson's theorem: a Lipschitz function is close to a polynomial. -/
theorem jackson_lipschitz {l : ℝ} (hl : 0 < l) {f : ℝ → ℝ} {K : ℝ} (hf : ∀ x ∈ Set.Icc 0 l, ∀ y ∈ Set.Icc 0 l, |f x - f y| ≤ K * |x - y|)
    {m : ℕ} (hm : 2 ≤ m) : ∃ r : ℝ[X], r.natDegree ≤ m ∧ ∀ x ∈ Set.Icc 0 l, |r.eval x - f x| ≤ 3 * π * K * l / (4 * (m + 2)) := by
  have hpi := pi_pos
  have hK : 0 ≤ K := by
    have := (abs_nonneg _).trans (hf 0 ⟨le_rfl, hl.le⟩ l ⟨hl.le, le_rfl⟩)
    rw [zero_sub, abs_neg, abs_of_pos hl] at this
    exact nonneg_of_mul_nonneg_left this hl
  have hmem : ∀ φ, freq l φ ∈ Set.Icc 0 l := fun φ => by
    unfold freq
    have h1 := neg_one_le_cos φ
    have h2 := cos_le_one φ
    constructor
    · have : 0 ≤ l * (1 + cos φ) := mul_nonneg hl.le (by linarith)
      linarith
    · nlinarith
  have hfr : ∀ φ θ, freq l φ - freq l θ = l / 2 * (cos φ - cos θ) := fun φ θ => by unfold freq; ring
  set F : ℝ → ℝ := fun φ => f (freq l φ) with hFdef
  have hFd : ∀ φ θ, |F φ - F θ| ≤ K * (l / 2) * |cos φ - cos θ| := fun φ θ => by
    have := hf _ (hmem φ) _ (hmem θ)
    rw [hfr, abs_mul, abs_of_pos (by positivity : 0 < l / 2), ← mul_assoc] at this
    exact this
  have hFc : Continuous F := by
    rw [continuous_iff_continuousAt]
    intro θ
    rw [ContinuousAt, tendsto_iff_dist_tendsto_zero]
    have h : Continuous fun φ => K * (l / 2) * |cos φ - cos θ| := by fun_prop
    have h0 := h.tendsto θ
    rw [sub_self, abs_zero, mul_zero] at h0
    exact squeeze_zero (fun _ => dist_nonneg) (fun φ => hFd φ θ) h0
  set c : ℕ → ℝ := fun k => 2 / π * ∫ φ in (0 : ℝ)..π, F φ * cos (k * φ) with hcdef
  refine ⟨(chebSeries (fun k => c k * jacksonFactor m k) (m + 1)).comp (affine l), ?_, fun x hx => ?_⟩
  · refine natDegree_comp_le.trans ?_
    have h1 : (affine l).natDegree ≤ 1 := by
      unfold affine
      compute_degree
    calc _ ≤ m * 1 := Nat.mul_le_mul (natDegree_chebSeries _ _) h1
      _ = m := by ring
  obtain ⟨θ, -, hθ⟩ := exists_angle (lmin := 0) (lmax := l) hl hx.1 hx.2
  rw [zero_add, sub_zero] at hθ
  rw [← hθ, eval_series_freq hl]
  have hav : cosPoly (fun k => c k * jacksonFactor m k) (m + 1) θ = 2 / π * ∫ φ in (0 : ℝ)..π, F φ * jq m θ φ := by
    unfold jq
    rw [integral_mul_cosPoly _ (fun k => (by fun_prop : Continuous fun θ => F θ * cos (k * θ)).intervalIntegrable _ _)]
    unfold cosPoly
    have := pi_ne_zero
    simp only [Nat.cast_zero, zero_mul, cos_zero, mul_one, hcdef]
    rw [mul_add, Finset.mul_sum]
    congr 1
    · field_simp
    · refine Finset.sum_congr rfl fun k _ => ?_
      field_simp
  have hq := jq_cont m θ
  have e1 : F θ = 2 / π * ∫ φ in (0 : ℝ)..π, F θ * jq m θ φ := by
    rw [intervalIntegral.integral_const_mul, jq_integral]; field_simp
  have e2 : cosPoly (fun k => c k * jacksonFactor m k) (m + 1) θ - F θ = 2 / π * ∫ φ in (0 : ℝ)..π, (F φ - F θ) * jq m θ φ := by
    simp only [sub_mul]
    rw [intervalIntegral.integral_sub (f := fun φ => F φ * jq m θ φ) ((hFc.mul hq).intervalIntegrable _ _) ((hq.const_mul _).intervalIntegrable _ _), mul_sub, ← e1, hav]
  set α : ℝ := π / (m + 2) with hα
  have hα0 : 0 < α := by positivity
  have hmom := jq_moment hm θ
  rw [← hα] at hmom
  change |cosPoly (fun k => c k * jacksonFactor m k) (m + 1) θ - F θ| ≤ _
  rw [e2, abs_mul, abs_of_pos (by positivity)]
  have h1 : |∫ φ in (0 : ℝ)..π, (F φ - F θ) * jq m θ φ| ≤ ∫ φ in (0 : ℝ)..π, |(F φ - F θ) * jq m θ φ| :=
    intervalIntegral.abs_integral_le_integral_abs hpi.le
  have h2 : ∫ φ in (0 : ℝ)..π, |(F φ - F θ) * jq m θ φ| ≤
      ∫ φ in (0 : ℝ)..π, (K * (l / 2) / (2 * α) * (jq m θ φ * (cos φ - cos θ) ^ 2) + K * (l / 2) * α / 2 * jq m θ φ) := by
    refine intervalIntegral.integral_mono_on hpi.le ?_ ?_ fun φ _ => ?_
    · exact (((hFc.sub continuous_const).mul hq).abs).intervalIntegrable _ _
    · apply Continuous.intervalIntegrable; fun_prop
    · rw [abs_mul, abs_of_nonneg (jq_nonneg m θ φ)]
      have hj := jq_nonneg m θ φ
      have hA : 0 ≤ K * (l / 2) := by positivity
      have h3 : |cos φ - cos θ| ≤ (cos φ - cos θ) ^ 2 / (2 * α) + α / 2 := by
        rw [← sq_abs (cos φ - cos θ)]
        have : 0 ≤ (|cos φ - cos θ| - α) ^ 2 / (2 * α) := by positivity
        have e : (|cos φ - cos θ| - α) ^ 2 / (2 * α) = |cos φ - cos θ| ^ 2 / (2 * α) + α / 2 - |cos φ - cos θ| := by
          field_simp; ring
        linarith
      calc _ ≤ (K * (l / 2) * ((cos φ - cos θ) ^ 2 / (2 * α) + α / 2)) * jq m θ φ :=
            mul_le_mul_of_nonneg_right ((hFd φ θ).trans (mul_le_mul_of_nonneg_left h3 hA)) hj
        _ = _ := by ring
  rw [intervalIntegral.integral_add (by apply Continuous.intervalIntegrable; fun_prop) (by apply Continuous.intervalIntegrable; fun_prop),
    intervalIntegral.integral_const_mul, intervalIntegral.integral_const_mul, jq_integral] at h2
  calc _ ≤ 2 / π * (K * (l / 2) / (2 * α) * (π * α ^ 2) + K * (l / 2) * α / 2 * (π / 2)) := by
        refine mul_le_mul_of_nonneg_left ((h1.trans h2).trans ?_) (by positivity)
        gcongr
    _ = 3 * K * l / 4 * α := by field_simp; ring
    _ = _ := by rw [hα]; field_simp

/-! ### filters -/

/-- Filtering the signal `x` with the Chebyshev method and with the exact method both succeed, and the outputs of every filter differ by at most `ε ‖x‖` in Euclidean norm. -/
def ChebWithin (S : Solvers n) (f : Bank) (order : ℕ) (s : GState n) (x : Fin n → ℝ) (ε : ℝ) : Prop :=
  ∃ y z : Fin n → Fin 1 → Fin f.Nf → ℝ, (f.filter S (Arr.of1 x) .chebyshev order s).1 = .ok (Arr.of3 y).squeeze ∧
    (f.filter S (Arr.of1 x) .exact order s).1 = .ok (Arr.of3 z).squeeze ∧
    ∀ i, √(∑ v, (y v 0 i - z v 0 i) ^ 2) ≤ ε * √(∑ v, x v ^ 2)

theorem exp_deriv (c : ℝ) (N : ℕ) : iteratedDeriv N (fun x => exp (c * x)) = fun x => c ^ N * exp (c * x) := by
  induction N with
  | zero => simp
  | succ N ih =>
    rw [iteratedDeriv_succ, ih]
    funext x
    have h : HasDerivAt (fun x => c ^ N * exp (c * x)) (c ^ N * (exp (c * x) * (c * 1))) x :=
      (((hasDerivAt_id x).const_mul c).exp).const_mul _
    rw [h.deriv]
    ring

section

variable {S : Solvers n} (hS : Sound S) {g : Graph n ℝ} (hg : g.Built) (hist : List (Op n)) {s : GState n}
  (hs : s = runAll S hist (GState.ofGraph g)) (hW : NonnegW g.W.dense) (hn : 0 < n) (hk : Known s.lapType)
  (hcomplete : ∀ b, s.basis = some b → b.k = n) {l : ℝ} (h : (s.getLmax S).1 = .ok (some (.fin l))) (hl : 0 < l)
  (hbound : ∀ v, IsEigenvalue s.L v → v ≤ l)

include hS hg hist hs hW hn hk hcomplete h hl hbound

theorem chebWithin_of (f : Bank) (hf : f.Nf ≠ 0) (k : Fin f.Nf → ℝ → ℝ) (hp : f.IsPointwise k) {order : ℕ} (ho : order ≠ 0) {ε : ℝ}
    (hε : ∀ i (q : ℝ[X]), q.natDegree ≤ order → (∀ j, q.eval (chebNode l (order + 1) j) = k i (chebNode l (order + 1) j)) →
      ∀ x ∈ Set.Icc 0 l, |q.eval x - k i x| ≤ ε) (x : Fin n → ℝ) : ChebWithin S f order s x ε := by
  obtain ⟨B, hb, hbk, he⟩ := GState.complete_basis hS hg hist hs hW hn hk hcomplete
  obtain ⟨hi', hWs, -⟩ := reach_inv hS hg hist
  rw [← hs] at hi' hWs
  have hpsd := hi'.psd (show NonnegW s.W.dense by rw [hWs]; exact hW)
  obtain ⟨h1, q, hq, hv⟩ := C36_interpolation h hl.ne' f hf k hp order ho
  obtain ⟨h2, p, hpe⟩ := C28_function_of_L hS hg hist hs hW hn hk hcomplete f k hp order x
  refine ⟨_, _, h1 q hq hv x, h2 p hpe, fun i => ?_⟩
  obtain ⟨kk, e, U⟩ := B
  simp only at hbk he
  subst hbk
  have hmem : ∀ j, e j ∈ Set.Icc 0 l := fun j => ⟨eig_nonneg hpsd (he.isEigenvalue j), hbound _ (he.isEigenvalue j)⟩
  have hd : ∀ j, |(q i - p i).eval (e j)| ≤ ε := fun j => by
    rw [eval_sub, hpe i _ (he.isEigenvalue j)]
    exact hε i (q i) (hq i) (fun j => hv i j) _ (hmem j)
  have hε0 : 0 ≤ ε := (abs_nonneg _).trans (hd ⟨0, hn⟩)
  have e1 : ∀ v, (aeval s.L (q i) *ᵥ x) v - (aeval s.L (p i) *ᵥ x) v = (spectralOp U (fun j => (q i - p i).eval (e j)) *ᵥ x) v := fun v => by
    rw [← aeval_spectral he, map_sub, Matrix.sub_mulVec, Pi.sub_apply]
  simp only [e1]
  rw [energy_spectralOp he.orthonormal, ← energy_gft he.orthonormal x, ← sqrt_sq hε0, ← sqrt_mul (sq_nonneg _), Finset.mul_sum]
  refine sqrt_le_sqrt (Finset.sum_le_sum fun j _ => mul_le_mul_of_nonneg_right ?_ (sq_nonneg _))
  rw [← sq_abs]
  exact pow_le_pow_left₀ (abs_nonneg _) (hd j) 2

/-- **Near-best approximation**: if polynomials of degree at most `order` are within `E` of the kernels on `[0, lmax]`, the Chebyshev filter is within `(1 + √(2 (order + 1))) E ‖x‖` of the exact one. -/
theorem C97_near_best (f : Bank) (hf : f.Nf ≠ 0) (k : Fin f.Nf → ℝ → ℝ) (hp : f.IsPointwise k) {order : ℕ} (ho : order ≠ 0) {E : ℝ} (r : Fin f.Nf → ℝ[X])
    (hr : ∀ i, (r i).natDegree ≤ order) (hE : ∀ i x, 0 ≤ x → x ≤ l → |(r i).eval x - k i x| ≤ E) (x : Fin n → ℝ) :
    ChebWithin S f order s x ((1 + √(2 * (order + 1))) * E) :=
  chebWithin_of hS hg hist hs hW hn hk hcomplete h hl hbound f hf k hp ho
    (fun i _ hq hv _ hx => interp_best hl hq (hr i) hv (fun y hy => hE i y hy.1 hy.2) hx) x

/-- **Lipschitz kernels**: if the kernels are `K`-Lipschitz on `[0, lmax]`, the error is at most `(1 + √(2 (order + 1))) · 3 π K lmax / (4 (order + 2)) · ‖x‖`. -/
theorem C97_lipschitz (f : Bank) (hf : f.Nf ≠ 0) (k : Fin f.Nf → ℝ → ℝ) (hp : f.IsPointwise k) {order : ℕ} (ho : 2 ≤ order) {K : ℝ}
    (hK : ∀ i x y, 0 ≤ x → x ≤ l → 0 ≤ y → y ≤ l → |k i x - k i y| ≤ K * |x - y|) (x : Fin n → ℝ) :
    ChebWithin S f order s x ((1 + √(2 * (order + 1))) * (3 * π * K * l / (4 * (order + 2)))) := by
  have := fun i => jackson_lipschitz hl (f := k i) (K := K) (fun a ha b hb => hK i a b ha.1 ha.2 hb.1 hb.2) ho
  choose r hr hE using this
  exact C97_near_best hS hg hist hs hW hn hk hcomplete h hl hbound f hf k hp (by omega) r hr (fun i x h0 h1 => hE i x ⟨h0, h1⟩) x

/-- **Convergence**: for Lipschitz kernels the Chebyshev filter converges to the exact one, uniformly in the signal, as the order grows. -/
theorem C97_convergence (f : Bank) (hf : f.Nf ≠ 0) (k : Fin f.Nf → ℝ → ℝ) (hp : f.IsPointwise k) {K : ℝ}
    (hK : ∀ i x y, 0 ≤ x → x ≤ l → 0 ≤ y → y ≤ l → |k i x - k i y| ≤ K * |x - y|) {ε : ℝ} (hε : 0 < ε) :
    ∃ m0, ∀ order, m0 ≤ order → ∀ x : Fin n → ℝ, ChebWithin S f order s x ε := by
  have hpi := pi_pos
  have hlim : Filter.Tendsto (fun m : ℕ => (1 + √(2 * ((m : ℝ) + 1))) * (3 * π * K * l / (4 * ((m : ℝ) + 2)))) Filter.atTop (nhds 0) := by
    have h1 : Filter.Tendsto (fun m : ℕ => √((m : ℝ) + 2)) Filter.atTop Filter.atTop :=
      (tendsto_sqrt_atTop).comp (Filter.tendsto_atTop_add_const_right _ _ tendsto_natCast_atTop_atTop)
    have h2 := h1.inv_tendsto_atTop
    have h3 : Filter.Tendsto (fun m : ℕ => |3 * π * K * l| * (√((m : ℝ) + 2))⁻¹) Filter.atTop (nhds 0) := by
      simpa using h2.const_mul |3 * π * K * l|
    refine squeeze_zero_norm (fun m => ?_) h3
    rw [Real.norm_eq_abs, abs_mul, abs_div, abs_of_pos (by positivity : (0 : ℝ) < 1 + √(2 * ((m : ℝ) + 1))),
      abs_of_pos (by positivity : (0 : ℝ) < 4 * ((m : ℝ) + 2))]
    have hs2 : √((m : ℝ) + 2) * √((m : ℝ) + 2) = m + 2 := mul_self_sqrt (by positivity)
    have hs1 : 1 ≤ √((m : ℝ) + 2) := by rw [one_le_sqrt]; linarith [(Nat.cast_nonneg m : (0 : ℝ) ≤ m)]
    have hs3 : √(2 * ((m : ℝ) + 1)) ≤ 2 * √((m : ℝ) + 2) := by
      rw [show (2 : ℝ) * √((m : ℝ) + 2) = √(2 ^ 2 * ((m : ℝ) + 2)) by rw [sqrt_mul (by norm_num), sqrt_sq (by norm_num)]]
      exact sqrt_le_sqrt (by linarith [(Nat.cast_nonneg m : (0 : ℝ) ≤ m)])
    have hs0 : 0 < √((m : ℝ) + 2) := by positivity
    generalize √((m : ℝ) + 2) = t at *
    rw [← hs2]
    generalize √(2 * ((m : ℝ) + 1)) = u at *
    rw [mul_div_assoc', div_le_iff₀ (by positivity)]
    have : |3 * π * K * l| * t⁻¹ * (4 * (t * t)) = |3 * π * K * l| * (4 * t) := by field_simp
    rw [this, mul_comm]
    exact mul_le_mul_of_nonneg_left (by linarith) (abs_nonneg _)
  obtain ⟨m0, hm0⟩ := Filter.eventually_atTop.1 (hlim.eventually (gt_mem_nhds hε))
  refine ⟨max m0 2, fun order ho x => ?_⟩
  obtain ⟨y, z, a, b, c⟩ := C97_lipschitz hS hg hist hs hW hn hk hcomplete h hl hbound f hf k hp (le_of_max_le_right ho) hK x
  exact ⟨y, z, a, b, fun i => (c i).trans (mul_le_mul_of_nonneg_right (hm0 order (le_of_max_le_left ho)).le (sqrt_nonneg _))⟩

/-- **Smooth kernels**: if each kernel coincides on `[0, lmax]` with a function whose derivative of order `order + 1` is continuous, and bounded by `B` on `[0, lmax]`, the error is at most
`2 B (lmax / 4)^(order + 1) / (order + 1)! · ‖x‖`. -/
theorem C97_smooth (f : Bank) (hf : f.Nf ≠ 0) (k : Fin f.Nf → ℝ → ℝ) (hp : f.IsPointwise k) {order : ℕ} (ho : order ≠ 0) {B : ℝ} (F : Fin f.Nf → ℝ → ℝ)
    (hF : ∀ i, ContDiff ℝ (order + 1 : ℕ) (F i)) (hkF : ∀ i x, 0 ≤ x → x ≤ l → k i x = F i x)
    (hB : ∀ i x, 0 ≤ x → x ≤ l → |iteratedDeriv (order + 1) (F i) x| ≤ B) (x : Fin n → ℝ) :
    ChebWithin S f order s x (2 * B * (l / 4) ^ (order + 1) / (order + 1).factorial) :=
  chebWithin_of hS hg hist hs hW hn hk hcomplete h hl hbound f hf k hp ho
    (fun i _ hq hv _ hx => interp_smooth hl (hF i) (fun y hy => hkF i y hy.1 hy.2) (fun y hy => hB i y hy.1 hy.2) hq hv hx) x

/-- **Heat**: with scales at most `τ`, the error is at most `2 (τ / 4)^(order + 1) / (order + 1)! · ‖x‖`, whatever the graph. -/
theorem C97_heat {scale : List ℝ} (hsc : scale ≠ []) {τ : ℝ} (hτ : ∀ t ∈ scale, 0 ≤ t ∧ t ≤ τ) {order : ℕ} (ho : order ≠ 0) (x : Fin n → ℝ) :
    ChebWithin S (Design.heat l scale none) order s x (2 * (τ / 4) ^ (order + 1) / (order + 1).factorial) := by
  have hker := heat_kernels l scale
  have hlen : (Design.heat l scale none).Nf = scale.length := by simp [Bank.Nf, hker]
  have hget : ∀ i : Fin (Design.heat l scale none).Nf, i.val < scale.length := fun i => hlen ▸ i.2
  have hp : (Design.heat l scale none).IsPointwise fun i => Design.heatKernel l (scale[i.val]'(hget i)) := fun i => by
    simp only [List.get_eq_getElem, hker, List.getElem_map]
  have hb := fun i : Fin (Design.heat l scale none).Nf => hτ _ (List.getElem_mem (hget i))
  have hB : ∀ (i : Fin (Design.heat l scale none).Nf) (x : ℝ), 0 ≤ x → x ≤ l →
      |iteratedDeriv (order + 1) (fun x => exp (-(scale[i.val]'(hget i)) / l * x)) x| ≤ (τ / l) ^ (order + 1) := fun i x h0 h1 => by
    rw [exp_deriv, abs_mul, abs_pow, abs_div, abs_neg, abs_of_nonneg (hb i).1, abs_of_pos hl, abs_of_pos (exp_pos _)]
    have h2 : exp (-(scale[i.val]'(hget i)) / l * x) ≤ 1 := by
      rw [exp_le_one_iff]
      have := mul_nonneg (div_nonneg (hb i).1 hl.le) h0
      rw [neg_div, neg_mul]
      linarith
    calc _ ≤ ((scale[i.val]'(hget i)) / l) ^ (order + 1) * 1 := by
          refine mul_le_mul_of_nonneg_left h2 (pow_nonneg (div_nonneg (hb i).1 hl.le) _)
      _ ≤ _ := by
          rw [mul_one]
          exact pow_le_pow_left₀ (div_nonneg (hb i).1 hl.le) (div_le_div_of_nonneg_right (hb i).2 hl.le) _
  have := C97_smooth hS hg hist hs hW hn hk hcomplete h hl hbound (Design.heat l scale none) (by rw [hlen]; simpa using hsc)
    (fun i => Design.heatKernel l (scale[i.val]'(hget i))) hp ho (B := (τ / l) ^ (order + 1)) (fun i x => exp (-(scale[i.val]'(hget i)) / l * x))
    (fun i => by fun_prop) (fun i x h0 h1 => by
      rw [heatKernel_eq (div_nonneg (mul_nonneg (hb i).1 h0) hl.le)]
      congr 1
      ring) hB x
  have e : 2 * (τ / l) ^ (order + 1) * (l / 4) ^ (order + 1) / ((order + 1).factorial : ℝ) = 2 * (τ / 4) ^ (order + 1) / (order + 1).factorial := by
    rw [mul_assoc, ← mul_pow]
    rw [show τ / l * (l / 4) = τ / 4 by field_simp]
  rw [e] at this
  exact this

end

/-- The hypotheses of C97 are met: the path of four vertices, and kernels that are not polynomials. -/
example : ∃ (g : Graph 4 ℝ) (S : Solvers 4) (s : GState 4) (l : ℝ), g.Built ∧ Sound S ∧
    s = runAll S [.computeFourierBasis none] (GState.ofGraph g) ∧ NonnegW g.W.dense ∧ Known s.lapType ∧
    (∀ b, s.basis = some b → b.k = 4) ∧ (s.getLmax S).1 = .ok (some (.fin l)) ∧ 0 < l ∧ (∀ v, IsEigenvalue s.L v → v ≤ l) ∧
    (∀ x y : ℝ, 0 ≤ x → x ≤ l → 0 ≤ y → y ≤ l → abs (|x - 1| - |y - 1|) ≤ 1 * |x - y|) ∧
    ∀ x, ChebWithin S (Design.heat l [1, 10] none) 30 s x (2 * (10 / 4) ^ 31 / (31).factorial) := by
  obtain ⟨g, hg, hd, S, hS, s, hs, hk, ⟨b, hb, hbk⟩, l, ⟨hl, -, -, hv⟩, hlm⟩ :=
    exists_setup path4 path4_nonneg (i := 0) (j := 1) (by decide) (by simp [path4])
  have hW : NonnegW g.W.dense := by rw [hd]; exact path4_nonneg
  have hc : ∀ b, s.basis = some b → b.k = 4 := fun b' hb' => by
    rw [hb] at hb'
    rw [← Option.some.inj hb', hbk]
  refine ⟨g, S, s, l, hg, hS, hs, hW, hk, hc, hlm, hl, hv, fun x y _ _ _ _ => ?_, fun x => ?_⟩
  · rw [one_mul]
    refine (abs_abs_sub_abs_le_abs_sub _ _).trans ?_
    ring_nf
    exact le_rfl
  · exact C97_heat hS hg _ hs hW (by norm_num) hk hc hlm hl hv (scale := [1, 10]) (by simp) (by simp) (by norm_num) x

end PyGSP
