import Verif.Lemmas.ConjGrad
import Verif.Props.Regularisation
import Verif.Props.Relabel

/-!
# C146: learning with the tolerance of the conjugate gradient
-/

namespace PyGSP

open Matrix Spec GState Learning ConjGrad

variable {n : ℕ} {ρ : ℝ}

/-- **C146** The conjugate gradient of scipy, called on any symmetric positive semi-definite system that has a solution, reports success
(before its limit of iterations) and returns a signal whose residual is at most `rtol` times the norm of the right hand side. -/
theorem C146_solver (hρ : 0 < ρ) {A : Matrix (Fin n) (Fin n) ℝ} {b : Fin n → ℝ} (hA : Aᵀ = A) (hp : PSD A) (hb : ∃ x, A *ᵥ x = b) :
    len (b - A *ᵥ (cgRun ρ A b).1) ≤ ρ * len b ∧ (cgRun ρ A b).2 = 0 := by
  by_cases h0 : b = 0
  · have : cgRun ρ A b = (b, 0) := by
      unfold cgRun
      have : √(∑ v, b v ^ 2) = 0 := (len_zero_iff b).2 h0
      simp only [this, if_true]
    rw [this, h0, Matrix.mulVec_zero, sub_zero, Rounding.len_zero]
    simp
  · obtain ⟨j, -, -, hj, he⟩ := run_spec hρ hA hp hb h0
    rw [he]
    refine ⟨?_, rfl⟩
    rw [← ConjGrad.residual]
    exact hj.le

namespace ConjGrad

variable {L : Matrix (Fin n) (Fin n) ℝ} {m : Fin n → Bool} {tau : ℝ} {y : Fin n → ℝ}

theorem phi_run (hρ : 0 < ρ) {A : Matrix (Fin n) (Fin n) ℝ} {b : Fin n → ℝ} (hA : Aᵀ = A) (hp : PSD A) (hb : ∃ x, A *ᵥ x = b) :
    phi A b (scipyCG ρ A b) ≤ 0 := by
  by_cases h0 : b = 0
  · have : cgRun ρ A b = (b, 0) := by
      unfold cgRun
      have : √(∑ v, b v ^ 2) = 0 := (len_zero_iff b).2 h0
      simp only [this, if_true]
    unfold scipyCG
    rw [this, h0]
    simp [phi]
  · obtain ⟨j, -, hi, -, he⟩ := run_spec hρ hA hp hb h0
    unfold scipyCG
    rw [he]
    have hb0 : 0 < len b := lt_of_le_of_ne (Rounding.len_nonneg b) fun h => h0 ((len_zero_iff b).1 h.symm)
    refine phi_le hA hp hb j fun i hij hR => ?_
    have := hi i hij
    rw [hR, Rounding.len_zero] at this
    exact absurd this (not_le.2 (mul_pos hρ hb0))

theorem objective_phi (x : Fin n → ℝ) : misfit m y x + tau * smoothness L x = phi (penalised L m tau) (mask m y) x + misfit m y 0 := by
  unfold phi
  rw [penalised_quad]
  have : misfit m y x = (∑ v, if m v then x v ^ 2 else 0) - 2 * (x ⬝ᵥ mask m y) + misfit m y 0 := by
    unfold misfit mask dotProduct
    rw [Finset.mul_sum, ← Finset.sum_sub_distrib, ← Finset.sum_add_distrib]
    refine Finset.sum_congr rfl fun v _ => ?_
    cases hm : m v <;> simp [hm]
    ring
  rw [this]; ring

/-- the error of a signal with a small residual -/
theorem cauchy (x y : Fin n → ℝ) : x ⬝ᵥ y ≤ len x * len y := by
  rw [Rounding.len_eq, Rounding.len_eq]
  have := real_inner_le_norm (WithLp.toLp 2 y) (WithLp.toLp 2 x)
  rw [EuclideanSpace.inner_eq_star_dotProduct] at this
  simp only [star_trivial] at this
  linarith [mul_comm ‖WithLp.toLp 2 x‖ ‖WithLp.toLp 2 y‖]

theorem len_sq (x : Fin n → ℝ) : len x ^ 2 = x ⬝ᵥ x := by
  unfold len
  rw [Real.sq_sqrt (Finset.sum_nonneg fun v _ => sq_nonneg _), dotProduct]
  exact Finset.sum_congr rfl fun v _ => sq _

/-- a positive semi-definite matrix whose eigenvalues are at most `B` -/
theorem len_psd (hL : Lᵀ = L) (hp : PSD L) {B : ℝ} (hB : ∀ l, IsEigenvalue L l → l ≤ B) (x : Fin n → ℝ) : len (L *ᵥ x) ≤ B * len x := by
  have hq : ∀ x : Fin n → ℝ, x ⬝ᵥ (L *ᵥ x) ≤ B * (x ⬝ᵥ x) := quad_le_of_eig_le (fun i j => congrFun (congrFun hL j) i) hB
  by_cases hx : x = 0
  · rw [hx, Matrix.mulVec_zero, Rounding.len_zero]; simp
  have hxpos : 0 < x ⬝ᵥ x := by
    rw [← len_sq]
    exact pow_pos (lt_of_le_of_ne (Rounding.len_nonneg x) fun h => hx ((len_zero_iff x).1 h.symm)) 2
  have hB0 : 0 ≤ B := by
    by_contra h
    have := (hp x).trans (hq x)
    nlinarith
  have h4 : ∀ t : ℝ, 0 ≤ (L *ᵥ x ⬝ᵥ (L *ᵥ (L *ᵥ x))) * (t * t) + (2 * (L *ᵥ x ⬝ᵥ L *ᵥ x)) * t + x ⬝ᵥ (L *ᵥ x) := by
    intro t
    have := hp (x + t • (L *ᵥ x))
    rw [Matrix.mulVec_add, Matrix.mulVec_smul, dotProduct_add, add_dotProduct, add_dotProduct, smul_dotProduct, smul_dotProduct,
      dotProduct_smul, dotProduct_smul, dot_symm hL x (L *ᵥ x)] at this
    simp only [smul_eq_mul] at this
    linarith
  have h5 := discrim_le_zero h4
  unfold discrim at h5
  have h6 := hq (L *ᵥ x)
  have h7 := hq x
  have h8 := hp x
  have h9 : 0 ≤ L *ᵥ x ⬝ᵥ L *ᵥ x := by rw [← len_sq]; positivity
  have h10 : (L *ᵥ x ⬝ᵥ L *ᵥ x) ≤ B * (x ⬝ᵥ (L *ᵥ x)) := by
    rcases h9.lt_or_eq with h9 | h9
    · refine le_of_mul_le_mul_left ?_ h9
      nlinarith [mul_le_mul_of_nonneg_right h6 h8]
    · rw [← h9]; positivity
  have h11 : len (L *ᵥ x) ^ 2 ≤ (B * len x) ^ 2 := by
    rw [mul_pow, len_sq, len_sq]
    nlinarith [mul_le_mul_of_nonneg_left h7 hB0]
  exact abs_le_of_sq_le_sq' h11 (mul_nonneg hB0 (Rounding.len_nonneg x)) |>.2

/-- a quarter of the way between a labelled vertex and any other -/
theorem vertex_le {a c r D t : ℝ} (ht : 0 < t) (hr : 0 ≤ r) (hD : 0 ≤ D) (hc : c ^ 2 ≤ r * D) : (a + c) ^ 2 ≤ (1 + r / t) * (a ^ 2 + t * D) := by
  have h1 : (2 * (a * c)) ^ 2 ≤ (r / t * a ^ 2 + t * D) ^ 2 := by
    have e1 : (r / t * a ^ 2) * (t * D) = a ^ 2 * (r * D) := by field_simp
    have := mul_le_mul_of_nonneg_left hc (sq_nonneg a)
    nlinarith [sq_nonneg (r / t * a ^ 2 - t * D)]
  have h2 := abs_le_of_sq_le_sq' h1 (by positivity) |>.2
  have e2 : r / t * (t * D) = r * D := by field_simp
  nlinarith

end ConjGrad

variable {S : Solvers n} {g : Graph n ℝ} {s : GState n} {b b' : Bool} {m : Fin n → Bool} {y x x' : Fin n → ℝ} {tau : ℝ}
  {cg : Matrix (Fin n) (Fin n) ℝ → (Fin n → ℝ) → Fin n → ℝ}

/-- **C146** The regression returns, its result satisfies the normal equations up to `rtol` times the norm of the measurements, its
objective is at most that of the zero signal, and hence its smoothness at most the squared norm of the measurements over `tau`. -/
theorem C146_result (h : Ready S g s) (hρ : 0 < ρ) (ht : 0 < tau) : ∃ x, regression1 (scipyCG ρ) b s.L y m tau = .ok x ∧
    √(∑ v, ((if m v then y v - x v else 0) - tau * (s.L *ᵥ x) v) ^ 2) ≤ ρ * √(∑ v, if m v then y v ^ 2 else 0) ∧
    misfit m y x + tau * smoothness s.L x ≤ misfit m y 0 ∧ smoothness s.L x ≤ (∑ v, if m v then y v ^ 2 else 0) / tau := by
  obtain ⟨hsym, hpsd⟩ := ready_lap h
  have hA := penalised_symm (m := m) hsym tau
  have hP := penalised_psd (m := m) hpsd ht
  have hb := penalised_consistent (m := m) hsym hpsd ht y
  have hobj : misfit m y (scipyCG ρ (penalised s.L m tau) (mask m y)) + tau * smoothness s.L (scipyCG ρ (penalised s.L m tau) (mask m y)) ≤ misfit m y 0 := by
    rw [objective_phi]
    linarith [phi_run hρ hA hP hb]
  refine ⟨scipyCG ρ (penalised s.L m tau) (mask m y), ?_, ?_, hobj, ?_⟩
  · unfold regression1
    rw [if_pos ht, dif_pos rfl]
    rfl
  · have := (C146_solver hρ hA hP hb).1
    unfold len at this
    convert this using 4 with v _ v _
    · rw [Pi.sub_apply, penalised_mulVec]
      unfold mask scipyCG
      cases hm : m v <;> simp [hm]
      ring
    · unfold mask
      cases hm : m v <;> simp [hm]
  · have h0 : misfit m y 0 = ∑ v, if m v then y v ^ 2 else 0 := by simp [misfit]
    rw [le_div_iff₀ ht, ← h0]
    have : 0 ≤ misfit m y (scipyCG ρ (penalised s.L m tau) (mask m y)) := Finset.sum_nonneg fun v _ => by split <;> positivity
    linarith

namespace ConjGrad

/-- the difference to the exact solution -/
theorem diff_spec (h : Ready S g s) (hρ : 0 < ρ) (hcg : ExactCG cg) (ht : 0 < tau) (hx : regression1 (scipyCG ρ) b s.L y m tau = .ok x)
    (hx' : regression1 cg b' s.L y m tau = .ok x') : len (penalised s.L m tau *ᵥ (x' - x)) ≤ ρ * len (mask m y) := by
  obtain ⟨hsym, hpsd⟩ := ready_lap h
  have h1 := normal_eq h hcg ht hx'
  have h2 := (C146_solver hρ (penalised_symm (m := m) hsym tau) (penalised_psd (m := m) hpsd ht) (penalised_consistent (m := m) hsym hpsd ht y)).1
  unfold regression1 at hx
  rw [if_pos ht, dif_pos rfl] at hx
  have h3 : (cgRun ρ (penalised s.L m tau) (mask m y)).1 = x := Except.ok.inj hx
  rw [h3] at h2
  rw [Matrix.mulVec_sub, h1]
  exact h2

end ConjGrad

/-- **C146** When every vertex is measured, the distance to the exact regression is at most `rtol` times the norm of the measurements. -/
theorem C146_all_measured (h : Ready S g s) (hρ : 0 < ρ) (hcg : ExactCG cg) (ht : 0 < tau)
    (hx : regression1 (scipyCG ρ) b s.L y (fun _ : Fin n => true) tau = .ok x)
    (hx' : regression1 cg b' s.L y (fun _ : Fin n => true) tau = .ok x') : √(∑ v, (x' v - x v) ^ 2) ≤ ρ * √(∑ v, y v ^ 2) := by
  have h1 := diff_spec h hρ hcg ht hx hx'
  have hmy : mask (fun _ : Fin n => true) y = y := by funext v; simp [mask]
  rw [hmy] at h1
  obtain ⟨hsym, hpsd⟩ := ready_lap h
  have h2 := penalised_quad (L := s.L) (m := fun _ : Fin n => true) tau (x' - x)
  have h3 := cauchy (x' - x) (penalised s.L (fun _ : Fin n => true) tau *ᵥ (x' - x))
  have h4 : (∑ v, if (fun _ : Fin n => true) v then (x' - x) v ^ 2 else 0) = len (x' - x) ^ 2 := by
    rw [len_sq, dot_sum_sq]; simp
  have h5 : 0 ≤ tau * smoothness s.L (x' - x) := mul_nonneg ht.le (hpsd _)
  have h6 := Rounding.len_nonneg (x' - x)
  change len (x' - x) ≤ ρ * len y
  rcases h6.lt_or_eq with h6 | h6
  · refine le_of_mul_le_mul_left ?_ h6
    have := mul_le_mul_of_nonneg_left h1 h6.le
    rw [h4] at h2
    nlinarith
  · rw [← h6]
    exact mul_nonneg hρ.le (Rounding.len_nonneg y)

/-- **C146** In general: if every vertex is within resistance `r` of a measured one, the error at any vertex is at most
`rtol · sqrt(N) · (1 + r / tau)` times the norm of the measurements. -/
theorem C146_error (h : Ready S g s) (hl : s.lapType = .combinatorial) (hρ : 0 < ρ) (hcg : ExactCG cg) (ht : 0 < tau)
    (hx : regression1 (scipyCG ρ) b s.L y m tau = .ok x) (hx' : regression1 cg b' s.L y m tau = .ok x') {r : ℝ} (hr0 : 0 ≤ r)
    (hr : ∀ v, ∃ c r', m c = true ∧ IsResistance g.W.dense v c r' ∧ r' ≤ r) (v : Fin n) :
    |x v - x' v| ≤ ρ * √n * (1 + r / tau) * √(∑ u, if m u then y u ^ 2 else 0) := by
  have h1 := diff_spec h hρ hcg ht hx hx'
  have hL : s.L = combLap g.W.dense := h.comb hl
  obtain ⟨d, hd⟩ : ∃ d, d = x' - x := ⟨_, rfl⟩
  rw [← hd] at h1
  have h2 := penalised_quad (L := s.L) (m := m) tau d
  have h3 := cauchy d (penalised s.L m tau *ᵥ d)
  obtain ⟨E, hE⟩ : ∃ E, E = d ⬝ᵥ (penalised s.L m tau *ᵥ d) := ⟨_, rfl⟩
  rw [← hE] at h2 h3
  have hD : smoothness s.L d = dirichlet g.W.dense d := by unfold smoothness; rw [hL, combLap_quad]
  have hD0 : 0 ≤ dirichlet g.W.dense d := by rw [← combLap_quad]; exact combLap_psd h.nonneg d
  have hv : ∀ v, d v ^ 2 ≤ (1 + r / tau) * E := by
    intro v
    obtain ⟨c, r', hc, hR, hrr⟩ := hr v
    have h5 := Reduction.diff_sq_le h.nonneg hR d
    have h6 : (d v - d c) ^ 2 ≤ r * dirichlet g.W.dense d := h5.trans (mul_le_mul_of_nonneg_right hrr hD0)
    have h7 := vertex_le (a := d c) (c := d v - d c) ht hr0 hD0 h6
    have h8 : d c ^ 2 ≤ ∑ v, if m v then d v ^ 2 else 0 := by
      have := Finset.single_le_sum (f := fun v => if m v then d v ^ 2 else 0) (fun v _ => by split <;> positivity) (Finset.mem_univ c)
      simpa [hc] using this
    have h9 : 0 ≤ 1 + r / tau := by positivity
    have e : d c + (d v - d c) = d v := by ring
    rw [e] at h7
    refine h7.trans (mul_le_mul_of_nonneg_left ?_ h9)
    rw [h2, hD]
    linarith
  obtain ⟨K, hK⟩ : ∃ K, K = 1 + r / tau := ⟨_, rfl⟩
  have hK0 : 0 < K := by rw [hK]; positivity
  rw [← hK] at hv ⊢
  obtain ⟨N, hN⟩ : ∃ N, N = len (mask m y) := ⟨_, rfl⟩
  have hN0 : 0 ≤ N := hN ▸ Rounding.len_nonneg _
  rw [← hN] at h1
  have hNeq : √(∑ u, if m u then y u ^ 2 else 0) = N := by
    rw [hN]; unfold len mask
    congr 1
    exact Finset.sum_congr rfl fun u _ => by cases m u <;> simp
  rw [hNeq]
  have hlen : len d ^ 2 ≤ n * (K * E) := by
    rw [len_sq, dot_sum_sq]
    refine (Finset.sum_le_sum fun v _ => hv v).trans ?_
    simp
  have hE0 : 0 ≤ E := by
    rw [h2]
    have := mul_nonneg ht.le hD0
    rw [hD]
    have : 0 ≤ ∑ v, if m v then d v ^ 2 else 0 := Finset.sum_nonneg fun v _ => by split <;> positivity
    linarith
  have hld := Rounding.len_nonneg d
  have hE2 : E ≤ n * K * (ρ * N) ^ 2 := by
    rcases hE0.lt_or_eq with hE0 | hE0
    · have h10 : E ≤ len d * (ρ * N) := h3.trans (mul_le_mul_of_nonneg_left h1 hld)
      have h11 : E ^ 2 ≤ (len d) ^ 2 * (ρ * N) ^ 2 := by rw [← mul_pow]; exact pow_le_pow_left₀ hE0.le h10 2
      have h12 : E * E ≤ E * (n * K * (ρ * N) ^ 2) := by
        have := mul_le_mul_of_nonneg_right hlen (sq_nonneg (ρ * N))
        nlinarith
      exact le_of_mul_le_mul_left h12 hE0
    · rw [← hE0]; positivity
  have hfin : (x v - x' v) ^ 2 ≤ (ρ * √n * K * N) ^ 2 := by
    have e1 : (x v - x' v) ^ 2 = d v ^ 2 := by rw [hd, Pi.sub_apply]; ring
    have e2 : (ρ * √n * K * N) ^ 2 = K * (n * K * (ρ * N) ^ 2) := by
      have := Real.sq_sqrt (Nat.cast_nonneg (α := ℝ) n)
      calc (ρ * √n * K * N) ^ 2 = (√n) ^ 2 * (K ^ 2 * (ρ * N) ^ 2) := by ring
        _ = _ := by rw [this]; ring
    rw [e1, e2]
    exact (hv v).trans (mul_le_mul_of_nonneg_left hE2 hK0.le)
  exact abs_le_of_sq_le_sq hfin (by positivity)

namespace ConjGrad

variable {L : Matrix (Fin n) (Fin n) ℝ}

/-- one iteration is enough when `tau` is small, and it only scales the right hand side -/
theorem small_tau (hL : Lᵀ = L) (hp : PSD L) {B : ℝ} (hB : ∀ l, IsEigenvalue L l → l ≤ B) (ht : 0 < tau) (hρ : 0 < ρ) (hρ1 : ρ ≤ 1) (htB : tau * B < ρ)
    (m : Fin n → Bool) (y : Fin n → ℝ) : ∃ a : ℝ, 0 < a ∧ a ≤ 1 ∧ a * (mask m y ⬝ᵥ mask m y + tau * smoothness L (mask m y)) = mask m y ⬝ᵥ mask m y ∧
      scipyCG ρ (penalised L m tau) (mask m y) = a • mask m y := by
  have hA := penalised_symm (m := m) hL tau
  have hP := penalised_psd (m := m) hp ht
  have hc := penalised_consistent (m := m) hL hp ht y
  obtain ⟨v0, hv0⟩ : ∃ v0, v0 = mask m y := ⟨_, rfl⟩
  have hAv : penalised L m tau *ᵥ v0 = v0 + tau • (L *ᵥ v0) := by
    funext v
    rw [penalised_mulVec, Pi.add_apply, Pi.smul_apply, smul_eq_mul]
    congr 1
    rw [hv0]; unfold mask
    split <;> rfl
  rw [← hv0] at hc ⊢
  by_cases h0 : v0 = 0
  · refine ⟨1, one_pos, le_rfl, by rw [h0]; simp [smoothness], ?_⟩
    unfold scipyCG cgRun
    have : √(∑ v, v0 v ^ 2) = 0 := (len_zero_iff v0).2 h0
    simp only [this, if_true, one_smul]
  have hpos : 0 < len v0 := lt_of_le_of_ne (Rounding.len_nonneg v0) fun h => h0 ((len_zero_iff v0).1 h.symm)
  obtain ⟨j, -, hi, hj, he⟩ := run_spec hρ hA hP hc h0
  have hvv : 0 < v0 ⬝ᵥ v0 := by rw [← len_sq]; positivity
  have hq : 0 ≤ v0 ⬝ᵥ (L *ᵥ v0) := hp v0
  obtain ⟨κ, hκ⟩ : ∃ κ, κ = (v0 ⬝ᵥ (L *ᵥ v0)) / (v0 ⬝ᵥ v0) := ⟨_, rfl⟩
  have hκ0 : 0 ≤ κ := by rw [hκ]; positivity
  have hκv : κ * (v0 ⬝ᵥ v0) = v0 ⬝ᵥ (L *ᵥ v0) := by rw [hκ]; exact div_mul_cancel₀ _ hvv.ne'
  have hal : al (penalised L m tau) v0 0 = 1 / (1 + tau * κ) := by
    unfold al
    rw [P_zero]
    have : R (penalised L m tau) v0 0 = v0 := rfl
    rw [this, hAv, dotProduct_add, dotProduct_smul, smul_eq_mul, ← hκv]
    have h1 : (1 + tau * κ) ≠ 0 := by positivity
    field_simp
  have ha0 : 0 < 1 / (1 + tau * κ) := by positivity
  have ha1 : 1 / (1 + tau * κ) ≤ 1 := by
    rw [div_le_one (by positivity)]
    have : 0 ≤ tau * κ := by positivity
    linarith
  -- the residual of the first iteration
  have hR1 : R (penalised L m tau) v0 1 = -((1 / (1 + tau * κ)) * tau) • (L *ᵥ v0 - κ • v0) := by
    rw [R_succ, hal, P_zero, hAv]
    have : R (penalised L m tau) v0 0 = v0 := rfl
    rw [this]
    have h1 : (1 + tau * κ) ≠ 0 := by positivity
    funext v
    simp only [Pi.sub_apply, Pi.add_apply, Pi.smul_apply, smul_eq_mul]
    field_simp
    ring
  have hproj : len (L *ᵥ v0 - κ • v0) ≤ len (L *ᵥ v0) := by
    refine abs_le_of_sq_le_sq' ?_ (Rounding.len_nonneg _) |>.2
    rw [len_sq, len_sq, dotProduct_sub, sub_dotProduct, sub_dotProduct, dotProduct_smul, smul_dotProduct, smul_dotProduct, dotProduct_smul,
      dotProduct_comm (L *ᵥ v0) v0]
    simp only [smul_eq_mul]
    rw [← hκv]
    nlinarith [mul_nonneg (sq_nonneg κ) hvv.le]
  have hlen1 : len (R (penalised L m tau) v0 1) < ρ * len v0 := by
    rw [hR1, Rounding.len_smul, abs_neg, abs_of_pos (mul_pos ha0 ht)]
    have h1 := hproj.trans (len_psd hL hp hB v0)
    have h2 : 1 / (1 + tau * κ) * tau ≤ tau := by nlinarith
    calc 1 / (1 + tau * κ) * tau * len (L *ᵥ v0 - κ • v0) ≤ tau * len (L *ᵥ v0 - κ • v0) := mul_le_mul_of_nonneg_right h2 (Rounding.len_nonneg _)
      _ ≤ tau * (B * len v0) := mul_le_mul_of_nonneg_left h1 ht.le
      _ = (tau * B) * len v0 := by ring
      _ < ρ * len v0 := mul_lt_mul_of_pos_right htB hpos
  have hj1 : j = 1 := by
    rcases Nat.lt_trichotomy j 1 with h | h | h
    · have : j = 0 := by omega
      rw [this] at hj
      have e : R (penalised L m tau) v0 0 = v0 := rfl
      rw [e] at hj
      nlinarith
    · exact h
    · exact absurd hlen1 (not_lt.2 (hi 1 h))
  refine ⟨1 / (1 + tau * κ), ha0, ha1, ?_, ?_⟩
  · unfold smoothness
    rw [← hκv]
    have h1 : (1 + tau * κ) ≠ 0 := by positivity
    field_simp
  unfold scipyCG
  rw [he, hj1, x_succ, hal, P_zero]
  simp [iter]

end ConjGrad

/-- **C146** For a small `tau` (`tau` times the largest frequency below `rtol`, whose default is 1e-5) the solver stops after one iteration:
the measurements times a number of `(0, 1]` on the measured vertices, exactly zero on all the others. -/
theorem C146_small_tau (h : Ready S g s) (hρ : 0 < ρ) (hρ1 : ρ ≤ 1) (ht : 0 < tau) {B : ℝ} (hB : ∀ l, IsEigenvalue s.L l → l ≤ B) (htB : tau * B < ρ) :
    ∃ a : ℝ, 0 < a ∧ a ≤ 1 ∧ regression1 (scipyCG ρ) b s.L y m tau = .ok fun v => if m v then a * y v else 0 := by
  obtain ⟨hsym, hpsd⟩ := ready_lap h
  obtain ⟨a, h1, h2, -, h3⟩ := small_tau hsym hpsd hB ht hρ hρ1 htB m y
  refine ⟨a, h1, h2, ?_⟩
  unfold regression1
  rw [if_pos ht, dif_pos rfl]
  refine congrArg Except.ok ?_
  change scipyCG ρ (penalised s.L m tau) (mask m y) = _
  rw [h3]
  funext v
  simp only [Pi.smul_apply, smul_eq_mul, mask]
  split <;> simp

/-- **C146** Hence the regression is not near the interpolation for small `tau`: with the same measurement `c` everywhere, an exact solver
gives `c` on all vertices, for every `tau`, the solver of scipy gives zero on the unmeasured ones. -/
theorem C146_small_tau_violated (h : Ready S g s) (hl : s.lapType = .combinatorial) (ha : Anchored g.W.dense m) (hρ : 0 < ρ) (hρ1 : ρ ≤ 1) (hcg : ExactCG cg)
    (ht : 0 < tau) {B : ℝ} (hB : ∀ l, IsEigenvalue s.L l → l ≤ B) (htB : tau * B < ρ) (c : ℝ)
    (hx : regression1 (scipyCG ρ) b s.L (fun _ => c) m tau = .ok x) (hx' : regression1 cg b' s.L (fun _ => c) m tau = .ok x') :
    (∀ v, x' v = c) ∧ ∀ v, m v = false → x v = 0 := by
  constructor
  · intro v
    have h1 := normal_eq h hcg ht hx'
    rw [h.comb hl] at h1
    obtain ⟨b1, -, h2⟩ := penalised_le h.nonneg ha ht h1 v
    obtain ⟨b2, -, h3⟩ := penalised_ge h.nonneg ha ht h1 v
    exact le_antisymm h2 h3
  · intro v hv
    obtain ⟨a, -, -, h1⟩ := C146_small_tau (b := b) (y := fun _ => c) (m := m) h hρ hρ1 ht hB htB
    rw [h1] at hx
    rw [← Except.ok.inj hx]
    simp [hv]

/-- **C146** In the same way the classification gives no information on the unlabelled vertices: their rows are zero. -/
theorem C146_classification_violated (h : Ready S g s) (hρ : 0 < ρ) (hρ1 : ρ ≤ 1) (ht : 0 < tau) {B : ℝ} (hB : ∀ l, IsEigenvalue s.L l → l ≤ B) (htB : tau * B < ρ)
    {labels : Fin n → ℤ} {k : ℕ} {X : Fin n → Fin k → ℝ} (hX : classification (scipyCG ρ) s.L labels m tau = .ok ⟨k, X⟩) (v : Fin n) (hv : m v = false)
    (j : Fin k) : X v j = 0 := by
  obtain ⟨hsym, hpsd⟩ := ready_lap h
  unfold classification at hX
  rw [dif_pos rfl] at hX
  split at hX
  · cases hX
  · rename_i k' Y _
    have h2 : regression2 (scipyCG ρ) s.L Y m tau = .ok fun v j => scipyCG ρ (penalised s.L m tau) (mask m fun v => Y v j) v := by
      unfold regression2
      rw [if_pos ht, dif_pos rfl]
      rfl
    rw [h2] at hX
    dsimp only at hX
    have h3 := Except.ok.inj hX
    obtain ⟨rfl, h4⟩ := Sigma.mk.inj h3
    rw [← eq_of_heq h4]
    beta_reduce
    obtain ⟨a, -, -, -, h5⟩ := small_tau hsym hpsd hB ht hρ hρ1 htB m fun v => Y v j
    rw [h5]
    simp [mask, hv]

/-- **C146** The result is homogeneous: measurements in another unit give the result in this unit, whatever the tolerance. -/
theorem C146_scaled {L : Matrix (Fin n) (Fin n) ℝ} (ht : 0 < tau) {c : ℝ} (hx : regression1 (scipyCG ρ) b L y m tau = .ok x) :
    regression1 (scipyCG ρ) b' L (fun v => c * y v) m tau = .ok fun v => c * x v := by
  unfold regression1 at hx ⊢
  rw [if_pos ht, dif_pos rfl] at hx ⊢
  have hx' : scipyCG ρ (penalised L m tau) (mask m y) = x := Except.ok.inj hx
  refine congrArg Except.ok ?_
  change scipyCG ρ (penalised L m tau) (mask m fun v => c * y v) = _
  have e : (mask m fun v => c * y v) = c • mask m y := by
    funext v
    simp only [mask, Pi.smul_apply, smul_eq_mul]
    split <;> simp
  rw [e]
  by_cases hc : c = 0
  · rw [hc, zero_smul]
    unfold scipyCG cgRun
    simp
    rfl
  · have := run_map (A := penalised L m tau) (A' := penalised L m tau) (c • LinearMap.id) (γ := c ^ 2) (by positivity)
      (fun x y => by simp only [LinearMap.smul_apply, LinearMap.id_apply, smul_dotProduct, dotProduct_smul, smul_eq_mul]; ring)
      (fun x => by simp [Matrix.mulVec_smul]) ρ (mask m y)
    simp only [LinearMap.smul_apply, LinearMap.id_apply] at this
    unfold scipyCG at hx' ⊢
    rw [this, hx']
    rfl

/-- **C146** Renaming the vertices of the graph, of the measurements and of the mask renames the result, whatever the tolerance. -/
theorem C146_renamed {S' : Solvers n} {g' : Graph n ℝ} {s' : GState n} (h : Ready S g s) (h' : Ready S' g' s') {σ : Equiv.Perm (Fin n)}
    (hσ : Relabel σ g.W.dense g'.W.dense) (hlap : s'.lapType = s.lapType) (ht : 0 < tau) (hx : regression1 (scipyCG ρ) b s.L y m tau = .ok x) :
    regression1 (scipyCG ρ) b' s'.L (fun v => y (σ.symm v)) (fun v => m (σ.symm v)) tau = .ok fun v => x (σ.symm v) := by
  unfold regression1 at hx ⊢
  rw [if_pos ht, dif_pos rfl] at hx ⊢
  have hx' : scipyCG ρ (penalised s.L m tau) (mask m y) = x := Except.ok.inj hx
  refine congrArg Except.ok ?_
  change scipyCG ρ (penalised s'.L (fun v => m (σ.symm v)) tau) (mask (fun v => m (σ.symm v)) fun v => y (σ.symm v)) = _
  have hL := relabel_L h h' hσ hlap
  have := run_map (A := penalised s.L m tau) (A' := penalised s'.L (fun v => m (σ.symm v)) tau) (LinearMap.funLeft ℝ ℝ σ.symm) (γ := 1) one_pos
    (fun x y => by
      simp only [dotProduct, LinearMap.funLeft_apply, one_mul]
      exact Equiv.sum_comp σ.symm fun v => x v * y v)
    (fun x => by
      funext v
      rw [penalised_mulVec, LinearMap.funLeft_apply, LinearMap.funLeft_apply, penalised_mulVec]
      congr 2
      simp only [Matrix.mulVec, dotProduct]
      rw [← Equiv.sum_comp σ]
      refine Finset.sum_congr rfl fun w _ => ?_
      rw [LinearMap.funLeft_apply, Equiv.symm_apply_apply]
      congr 1
      have := hL (σ.symm v) w
      rwa [Equiv.apply_symm_apply] at this) ρ (mask m y)
  have e : (mask (fun v => m (σ.symm v)) fun v => y (σ.symm v)) = LinearMap.funLeft ℝ ℝ σ.symm (mask m y) := by
    funext v; rw [LinearMap.funLeft_apply]; rfl
  rw [e]
  unfold scipyCG at hx' ⊢
  rw [this, hx']
  rfl

/-- **C146** But the result is not additive: when every vertex is measured and `tau` is small, the regression of the sum of a constant and of any signal that is
not constant on a component is not the sum of the regressions. -/
theorem C146_additive_violated (h : Ready S g s) (hl : s.lapType = .combinatorial) (hρ : 0 < ρ) (hρ1 : ρ ≤ 1) (ht : 0 < tau) {B : ℝ}
    (hB : ∀ l, IsEigenvalue s.L l → l ≤ B) (htB : tau * B < ρ) {c : ℝ} (hc : c ≠ 0) (hy : smoothness s.L y ≠ 0) {x₁ x₂ x₃ : Fin n → ℝ}
    (h1 : regression1 (scipyCG ρ) b s.L (fun _ => c) (fun _ : Fin n => true) tau = .ok x₁)
    (h2 : regression1 (scipyCG ρ) b s.L y (fun _ : Fin n => true) tau = .ok x₂)
    (h3 : regression1 (scipyCG ρ) b s.L (fun v => c + y v) (fun _ : Fin n => true) tau = .ok x₃) : x₃ ≠ x₁ + x₂ := by
  obtain ⟨hsym, hpsd⟩ := ready_lap h
  have hmask : ∀ z : Fin n → ℝ, mask (fun _ : Fin n => true) z = z := fun z => by funext v; simp [mask]
  have key : ∀ (z w : Fin n → ℝ), regression1 (scipyCG ρ) b s.L z (fun _ : Fin n => true) tau = .ok w →
      ∃ a : ℝ, a * (z ⬝ᵥ z + tau * smoothness s.L z) = z ⬝ᵥ z ∧ w = a • z := by
    intro z w hw
    obtain ⟨a, -, -, e1, e2⟩ := small_tau hsym hpsd hB ht hρ hρ1 htB (fun _ : Fin n => true) z
    rw [hmask] at e1 e2
    refine ⟨a, e1, ?_⟩
    unfold regression1 at hw
    rw [if_pos ht, dif_pos rfl] at hw
    rw [← e2, ← Except.ok.inj hw]
    change scipyCG ρ (penalised s.L (fun _ : Fin n => true) tau) (mask (fun _ : Fin n => true) z) = _
    rw [hmask]
  obtain ⟨a1, e1, rfl⟩ := key _ _ h1
  obtain ⟨a2, e2, rfl⟩ := key _ _ h2
  obtain ⟨a3, e3, rfl⟩ := key _ _ h3
  have hconst : s.L *ᵥ (fun _ : Fin n => c) = 0 := by rw [h.comb hl]; exact combLap_const _ _
  have hn : 0 < n := h.pos
  have hcc : 0 < (fun _ : Fin n => c) ⬝ᵥ fun _ : Fin n => c := by
    simp only [dotProduct, Finset.sum_const, Finset.card_univ, Fintype.card_fin, nsmul_eq_mul]
    have : 0 < c * c := mul_self_pos.2 hc
    positivity
  have ha1 : a1 = 1 := by
    have : smoothness s.L (fun _ : Fin n => c) = 0 := by unfold smoothness; rw [hconst, dotProduct_zero]
    rw [this, mul_zero, add_zero] at e1
    exact mul_right_cancel₀ hcc.ne' (by rw [e1, one_mul])
  have hyy : 0 < smoothness s.L y := lt_of_le_of_ne (hpsd y) hy.symm
  have ha2 : a2 ≠ 1 := by
    rintro rfl
    have : tau * smoothness s.L y = 0 := by linarith
    exact absurd this (mul_pos ht hyy).ne'
  subst ha1
  intro hsum
  -- the two signals are not proportional
  have hpt : ∀ v, (a3 - 1) * c + (a3 - a2) * y v = 0 := by
    intro v
    have := congrFun hsum v
    simp only [Pi.smul_apply, Pi.add_apply, smul_eq_mul] at this
    linarith
  have hne : a3 ≠ a2 := by
    rintro rfl
    have := hpt ⟨0, hn⟩
    simp only [sub_self, zero_mul, add_zero] at this
    exact ha2 (by linarith [(mul_eq_zero.1 this).resolve_right hc])
  have hyc : y = fun _ => -((a3 - 1) * c) / (a3 - a2) := by
    funext v
    rw [eq_div_iff (sub_ne_zero.2 hne)]
    linarith [hpt v]
  apply hy
  rw [hyc, h.comb hl]
  unfold smoothness
  rw [combLap_const, dotProduct_zero]

/-- A reachable case: the path with four vertices, measured at its ends, with the tolerance of scipy. -/
example : ∃ (g : Graph 4 ℝ) (S : Solvers 4) (s : GState 4) (cg : Matrix (Fin 4) (Fin 4) ℝ → (Fin 4 → ℝ) → Fin 4 → ℝ) (x x' : Fin 4 → ℝ) (B r : ℝ),
    Ready S g s ∧ s.lapType = .combinatorial ∧ Anchored g.W.dense ![true, false, false, true] ∧ ExactCG cg ∧
    (∀ l, IsEigenvalue s.L l → l ≤ B) ∧ 1 / 10 ^ 6 * B < 1 / 10 ^ 5 ∧ 0 ≤ r ∧
    (∀ v, ∃ c r', (![true, false, false, true] : Fin 4 → Bool) c = true ∧ IsResistance g.W.dense v c r' ∧ r' ≤ r) ∧
    regression1 (scipyCG (1 / 10 ^ 5)) false s.L (fun _ => 3) ![true, false, false, true] (1 / 10 ^ 6) = .ok x ∧
    regression1 cg false s.L (fun _ => 3) ![true, false, false, true] (1 / 10 ^ 6) = .ok x' ∧ x 1 = 0 ∧ x' 1 = 3 := by
  obtain ⟨S, g, s, hd, h, hl, -⟩ := exists_ready path4 path4_nonneg (by norm_num)
  obtain ⟨cg, hcg⟩ := exists_cg 4
  obtain ⟨hist, hs⟩ := h.reached
  obtain ⟨pinv, hp⟩ := exists_pinv 4
  have hcon : Connected g.W.dense := by rw [hd]; exact path4_connected
  have ha : Anchored g.W.dense ![true, false, false, true] := fun v => ⟨0, rfl, hcon v 0⟩
  obtain ⟨x', hx', -⟩ := C59_minimises h.sound h.built hist hs h.nonneg hcg false (fun _ => 3) ![true, false, false, true] (tau := 1 / 10 ^ 6) (by norm_num)
  obtain ⟨x, hx, -⟩ := C146_result (b := false) (y := fun _ => 3) (m := ![true, false, false, true]) (tau := 1 / 10 ^ 6) (ρ := 1 / 10 ^ 5) h (by norm_num) (by norm_num)
  have hB : ∀ l, IsEigenvalue s.L l → l ≤ 4 := by
    intro l hl'
    rw [h.comb hl, hd] at hl'
    obtain ⟨i, hi⟩ := eig_le_gershgorin path4_nonneg hl'
    refine hi.trans ?_
    fin_cases i <;> simp [wdeg, path4, Fin.sum_univ_four] <;> norm_num
  obtain ⟨R, -, hR⟩ := C55_effective_resistance h.sound h.built hist hs hl h.nonneg hcon hp
  have hv := C146_small_tau_violated h hl ha (ρ := 1 / 10 ^ 5) (by norm_num) (by norm_num) hcg (by norm_num) hB (by norm_num) 3 hx hx'
  refine ⟨g, S, s, cg, x, x', 4, ∑ v, |R v 0|, h, hl, ha, hcg, hB, by norm_num, Finset.sum_nonneg fun v _ => abs_nonneg _, fun v => ⟨0, R v 0, rfl, hR v 0, ?_⟩,
    hx, hx', hv.2 1 rfl, hv.1 1⟩
  exact (le_abs_self _).trans (Finset.single_le_sum (f := fun v => |R v 0|) (fun v _ => abs_nonneg _) (Finset.mem_univ v))

/-- Witness for `C146_additive_violated` (and for `C146_scaled`): on the path of four vertices, with `tau = 1e-6`, the regressions of the constant 1, of the signal
`(0, 1, 2, 3)` and of their sum all exist, and the third is not the sum of the first two. -/
example : ∃ (g : Graph 4 ℝ) (S : Solvers 4) (s : GState 4) (x₁ x₂ x₃ : Fin 4 → ℝ),
    Ready S g s ∧ s.lapType = .combinatorial ∧ smoothness s.L (fun v : Fin 4 => (v : ℝ)) ≠ 0 ∧
    regression1 (scipyCG (1 / 10 ^ 5)) false s.L (fun _ => 1) (fun _ : Fin 4 => true) (1 / 10 ^ 6) = .ok x₁ ∧
    regression1 (scipyCG (1 / 10 ^ 5)) false s.L (fun v : Fin 4 => (v : ℝ)) (fun _ : Fin 4 => true) (1 / 10 ^ 6) = .ok x₂ ∧
    regression1 (scipyCG (1 / 10 ^ 5)) false s.L (fun v : Fin 4 => 1 + (v : ℝ)) (fun _ : Fin 4 => true) (1 / 10 ^ 6) = .ok x₃ ∧ x₃ ≠ x₁ + x₂ := by
  obtain ⟨S, g, s, hd, h, hl, -⟩ := exists_ready path4 path4_nonneg (by norm_num)
  have hB : ∀ l, IsEigenvalue s.L l → l ≤ 4 := by
    intro l hl'
    rw [h.comb hl, hd] at hl'
    obtain ⟨i, hi⟩ := eig_le_gershgorin path4_nonneg hl'
    refine hi.trans ?_
    fin_cases i <;> simp [wdeg, path4, Fin.sum_univ_four] <;> norm_num
  have hs : smoothness s.L (fun v : Fin 4 => (v : ℝ)) ≠ 0 := by
    rw [h.comb hl, hd]
    simp [smoothness, combLap, wsym, Matrix.mulVec, dotProduct, wdeg, path4, Fin.sum_univ_four, Matrix.diagonal]
    norm_num
  obtain ⟨x₁, h1, -⟩ := C146_result (b := false) (y := fun _ => 1) (m := fun _ : Fin 4 => true) (tau := 1 / 10 ^ 6) (ρ := 1 / 10 ^ 5) h (by norm_num) (by norm_num)
  obtain ⟨x₂, h2, -⟩ := C146_result (b := false) (y := fun v : Fin 4 => (v : ℝ)) (m := fun _ : Fin 4 => true) (tau := 1 / 10 ^ 6) (ρ := 1 / 10 ^ 5) h (by norm_num) (by norm_num)
  obtain ⟨x₃, h3, -⟩ := C146_result (b := false) (y := fun v : Fin 4 => 1 + (v : ℝ)) (m := fun _ : Fin 4 => true) (tau := 1 / 10 ^ 6) (ρ := 1 / 10 ^ 5) h (by norm_num) (by norm_num)
  exact ⟨g, S, s, x₁, x₂, x₃, h, hl, hs, h1, h2, h3,
    C146_additive_violated h hl (ρ := 1 / 10 ^ 5) (by norm_num) (by norm_num) (by norm_num) hB (by norm_num) one_ne_zero hs h1 h2 h3⟩

end PyGSP
