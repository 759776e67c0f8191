import Verif.Props.Regularisation
import Verif.Props.Cheby
import Verif.Props.Diffusion
import Mathlib.Analysis.Calculus.Deriv.MeanValue
import Mathlib.Analysis.Calculus.Deriv.Pow
import Mathlib.Analysis.SpecialFunctions.ExpDeriv

/-!
# C121: filters spread a signal little beyond a number of hops
-/

namespace PyGSP

open Matrix Spec GState Polynomial Real Design Learning

variable {n : ℕ}

/-- The vertex `v` is more than `K` hops away from the vertices where `x` is not zero. -/
def Spec.FarFrom (W : Matrix (Fin n) (Fin n) ℝ) (K : ℕ) (x : Fin n → ℝ) (v : Fin n) : Prop := ∀ w, x w ≠ 0 → ¬ WithinHops W K v w

variable {S : Solvers n} {g : Graph n ℝ} {s : GState n} {e : Fin n → ℝ} {U : Matrix (Fin n) (Fin n) ℝ}

namespace Locality

theorem lap_off (h : Ready S g s) {i j : Fin n} (hij : i ≠ j) (h1 : g.W.dense i j = 0) (h2 : g.W.dense j i = 0) : s.L i j = 0 := by
  obtain ⟨hist, hs⟩ := h.reached
  obtain ⟨hi, hWs, -⟩ := reach_inv h.sound h.built hist
  rw [← hs] at hi hWs
  obtain ⟨lt, -, hL, -⟩ := hi.lap
  refine laplacian_support hL hij ?_ ?_
  · rw [hWs]; exact h1
  · rw [hWs]; exact h2

open Classical in
/-- a function of the Laplacian that is close to a polynomial -/
theorem spread (h : Ready S g s) (hE : IsEigenPairs s.L e U) (a : Fin n → ℝ) {p : ℝ[X]} {K : ℕ} (hp : p.natDegree ≤ K) {ε : ℝ}
    (hε : ∀ k, |a k - p.eval (e k)| ≤ ε) (x : Fin n → ℝ) :
    ∑ v with FarFrom g.W.dense K x v, (U *ᵥ fun k => a k * (Uᵀ *ᵥ x) k) v ^ 2 ≤ ε ^ 2 * ∑ v, x v ^ 2 := by
  have hspec : ∀ c : Fin n → ℝ, (U *ᵥ fun k => c k * (Uᵀ *ᵥ x) k) = spectralOp U c *ᵥ x := by
    intro c
    unfold spectralOp
    rw [← Matrix.mulVec_mulVec, ← Matrix.mulVec_mulVec]
    congr 1
    funext k
    rw [Matrix.mulVec_diagonal]
  have hfar : ∀ v, FarFrom g.W.dense K x v → (U *ᵥ fun k => p.eval (e k) * (Uᵀ *ᵥ x) k) v = 0 := by
    intro v hv
    rw [hspec, ← aeval_spectral hE]
    simp only [Matrix.mulVec, dotProduct]
    refine Finset.sum_eq_zero fun w _ => ?_
    by_cases hw : x w = 0
    · rw [hw, mul_zero]
    · rw [aeval_support (W := g.W.dense) (fun i j hij h1 h2 => lap_off h hij h1 h2) hp (hv w hw), zero_mul]
  have hdiff : ∀ v, (U *ᵥ fun k => a k * (Uᵀ *ᵥ x) k) v - (U *ᵥ fun k => p.eval (e k) * (Uᵀ *ᵥ x) k) v =
      (U *ᵥ fun k => (a k - p.eval (e k)) * (Uᵀ *ᵥ x) k) v := by
    intro v
    simp only [Matrix.mulVec, dotProduct, ← Finset.sum_sub_distrib]
    exact Finset.sum_congr rfl fun k _ => by ring
  calc _ = ∑ v with FarFrom g.W.dense K x v, (U *ᵥ fun k => (a k - p.eval (e k)) * (Uᵀ *ᵥ x) k) v ^ 2 := by
        refine Finset.sum_congr rfl fun v hv => ?_
        rw [← hdiff, hfar v (Finset.mem_filter.1 hv).2, sub_zero]
    _ ≤ ∑ v, (U *ᵥ fun k => (a k - p.eval (e k)) * (Uᵀ *ᵥ x) k) v ^ 2 :=
        Finset.sum_le_sum_of_subset_of_nonneg (Finset.filter_subset _ _) fun v _ _ => sq_nonneg _
    _ = ∑ k, (a k - p.eval (e k)) ^ 2 * (Uᵀ *ᵥ x) k ^ 2 := by
        rw [hspec, energy_spectralOp hE.orthonormal]
    _ ≤ ∑ k, ε ^ 2 * (Uᵀ *ᵥ x) k ^ 2 := Finset.sum_le_sum fun k _ => by
        refine mul_le_mul_of_nonneg_right ?_ (sq_nonneg _)
        rw [← sq_abs]
        exact pow_le_pow_left₀ (abs_nonneg _) (hε k) 2
    _ = _ := by rw [← Finset.mul_sum, energy_gft hE.orthonormal]

/-- the Taylor polynomial of the exponential -/
noncomputable def expTaylor (c : ℝ) (K : ℕ) : ℝ[X] := ∑ k ∈ Finset.range (K + 1), C ((-c) ^ k / k.factorial) * X ^ k

theorem expTaylor_degree (c : ℝ) (K : ℕ) : (expTaylor c K).natDegree ≤ K := by
  refine natDegree_sum_le_of_forall_le _ _ fun k hk => ?_
  exact (natDegree_C_mul_X_pow_le _ _).trans (by have := Finset.mem_range.1 hk; omega)

theorem expTaylor_eval (c t : ℝ) (K : ℕ) : (expTaylor c K).eval t = ∑ k ∈ Finset.range (K + 1), (-(c * t)) ^ k / k.factorial := by
  unfold expTaylor
  rw [eval_finset_sum]
  refine Finset.sum_congr rfl fun k _ => ?_
  rw [eval_C_mul, eval_pow, eval_X, neg_mul_eq_neg_mul, mul_pow]; ring

/-- the remainder of the Taylor expansion of `exp (-t)` -/
theorem exp_taylor (K : ℕ) : ∀ {t : ℝ}, 0 ≤ t → |exp (-t) - ∑ k ∈ Finset.range K, (-t) ^ k / k.factorial| ≤ t ^ K / K.factorial := by
  induction K with
  | zero => intro t ht; simpa [abs_of_pos (exp_pos _)] using exp_le_one_iff.2 (neg_nonpos.2 ht)
  | succ K ih =>
    intro t ht
    set R : ℕ → ℝ → ℝ := fun K t => exp (-t) - ∑ k ∈ Finset.range K, (-t) ^ k / k.factorial with hR
    have hder : ∀ t, HasDerivAt (R (K + 1)) (-(R K t)) t := by
      intro t
      have h1 : HasDerivAt (fun t : ℝ => exp (-t)) (-exp (-t)) t := by
        simpa using (hasDerivAt_id t).neg.exp
      have h2 : HasDerivAt (fun t : ℝ => ∑ k ∈ Finset.range (K + 1), (-t) ^ k / k.factorial) (-∑ k ∈ Finset.range K, (-t) ^ k / k.factorial) t := by
        have h3 : ∀ k ∈ Finset.range (K + 1), HasDerivAt (fun t : ℝ => (-t) ^ k / k.factorial) ((k : ℝ) * (-t) ^ (k - 1) * (-1) / k.factorial) t := by
          intro k _
          exact (((hasDerivAt_id t).neg.pow k).div_const _)
        have h4 := HasDerivAt.fun_sum h3
        refine h4.congr_deriv ?_
        rw [Finset.sum_range_succ', ← Finset.sum_neg_distrib]
        simp only [Nat.cast_zero, zero_mul, zero_div, add_zero]
        refine Finset.sum_congr rfl fun k _ => ?_
        rw [Nat.factorial_succ, Nat.add_sub_cancel]
        have : (k.factorial : ℝ) ≠ 0 := by exact_mod_cast k.factorial_ne_zero
        push_cast
        field_simp
      refine (h1.sub h2).congr_deriv ?_
      simp only [hR]; ring
    have hpow : ∀ t : ℝ, HasDerivAt (fun t : ℝ => t ^ (K + 1) / (K + 1).factorial) (t ^ K / K.factorial) t := by
      intro t
      refine ((hasDerivAt_pow (K + 1) t).div_const _).congr_deriv ?_
      rw [Nat.factorial_succ, Nat.add_sub_cancel]
      have : (K.factorial : ℝ) ≠ 0 := by exact_mod_cast K.factorial_ne_zero
      push_cast
      field_simp
    have h0 : R (K + 1) 0 = 0 := by
      simp only [hR, neg_zero, exp_zero]
      rw [Finset.sum_range_succ']
      simp
    have key : ∀ σ : ℝ, (σ = 1 ∨ σ = -1) → σ * R (K + 1) t ≤ t ^ (K + 1) / (K + 1).factorial := by
      intro σ hσ
      have hd : ∀ u, HasDerivAt (fun u => u ^ (K + 1) / (K + 1).factorial - σ * R (K + 1) u) (u ^ K / K.factorial - σ * -(R K u)) u :=
        fun u => (hpow u).sub ((hder u).const_mul σ)
      have hm : MonotoneOn (fun u => u ^ (K + 1) / (K + 1).factorial - σ * R (K + 1) u) (Set.Ici 0) := by
        refine monotoneOn_of_deriv_nonneg (convex_Ici 0) (fun u _ => (hd u).continuousAt.continuousWithinAt)
          (fun u _ => (hd u).differentiableAt.differentiableWithinAt) fun u hu => ?_
        rw [interior_Ici] at hu
        rw [(hd u).deriv]
        have := abs_le.1 (ih (t := u) (le_of_lt hu))
        change -(u ^ K / K.factorial) ≤ R K u ∧ R K u ≤ u ^ K / K.factorial at this
        rcases hσ with rfl | rfl <;> linarith [this.1, this.2]
      have := hm (Set.mem_Ici.2 le_rfl) (Set.mem_Ici.2 ht) ht
      simp only [h0, mul_zero, sub_zero] at this
      rw [zero_pow (by omega), zero_div] at this
      linarith
    change |R (K + 1) t| ≤ _
    have k1 := key 1 (.inl rfl)
    have k2 := key (-1) (.inr rfl)
    rw [abs_le]
    constructor <;> linarith

/-- the geometric expansion of `1 / (1 + tau t)` -/
noncomputable def geometric (tau c : ℝ) (K : ℕ) : ℝ[X] := C (1 / c) * ∑ k ∈ Finset.range (K + 1), (C (1 - 1 / c) - C (tau / c) * X) ^ k

theorem geometric_degree (tau c : ℝ) (K : ℕ) : (geometric tau c K).natDegree ≤ K := by
  unfold geometric
  refine (natDegree_C_mul_le _ _).trans (natDegree_sum_le_of_forall_le _ _ fun k hk => ?_)
  have h1 : (C (1 - 1 / c) - C (tau / c) * X : ℝ[X]).natDegree ≤ 1 := by
    refine (natDegree_sub_le _ _).trans ?_
    rw [natDegree_C]
    exact max_le (by omega) ((natDegree_C_mul_le _ _).trans natDegree_X_le)
  refine natDegree_pow_le.trans ?_
  calc k * _ ≤ k * 1 := Nat.mul_le_mul_left _ h1
    _ ≤ K := by have := Finset.mem_range.1 hk; omega

theorem geometric_near {tau M t : ℝ} (ht : 0 < tau) (h0 : 0 ≤ t) (h1 : t ≤ M) (K : ℕ) :
    |1 / (1 + tau * t) - (geometric tau (1 + tau * M / 2) K).eval t| ≤ (tau * M / (2 + tau * M)) ^ (K + 1) := by
  have hM : 0 ≤ tau * M := mul_nonneg ht.le (h0.trans h1)
  have htt : 0 ≤ tau * t := mul_nonneg ht.le h0
  have htM : tau * t ≤ tau * M := mul_le_mul_of_nonneg_left h1 ht.le
  set c : ℝ := 1 + tau * M / 2 with hc
  have hc0 : 0 < c := by rw [hc]; linarith
  set u : ℝ := 1 - (1 + tau * t) / c with hu
  have hu1 : u ≠ 1 := by
    rw [hu]; intro h
    have : (1 + tau * t) / c = 0 := by linarith
    have h2 := (div_eq_zero_iff.1 this).resolve_right hc0.ne'
    linarith
  have hev : (geometric tau c K).eval t = 1 / c * ((u ^ (K + 1) - 1) / (u - 1)) := by
    unfold geometric
    rw [eval_C_mul, eval_finset_sum]
    simp only [eval_pow, eval_sub, eval_C, eval_C_mul, eval_X]
    rw [← geom_sum_eq hu1]
    congr 1
    refine Finset.sum_congr rfl fun k _ => ?_
    congr 1
    rw [hu]; ring
  have hrem : 1 / (1 + tau * t) - (geometric tau c K).eval t = u ^ (K + 1) * (1 / (1 + tau * t)) := by
    have h3 : u - 1 = -((1 + tau * t) / c) := by rw [hu]; ring
    rw [hev, h3]
    have h4 : (1 + tau * t) ≠ 0 := by linarith
    field_simp
    ring
  have hub : |u| ≤ tau * M / (2 + tau * M) := by
    have h5 : u = (tau * M - 2 * (tau * t)) / (2 + tau * M) := by
      rw [hu, hc]
      have : (2 + tau * M) ≠ 0 := by linarith
      field_simp
      ring
    rw [h5, abs_div, abs_of_pos (show (0 : ℝ) < 2 + tau * M by linarith)]
    refine div_le_div_of_nonneg_right ?_ (by linarith)
    rw [abs_le]; constructor <;> linarith
  rw [hrem, abs_mul, abs_pow]
  have h6 : |1 / (1 + tau * t)| ≤ 1 := by
    rw [abs_of_pos (by positivity), div_le_one (by linarith)]; linarith
  calc |u| ^ (K + 1) * |1 / (1 + tau * t)| ≤ |u| ^ (K + 1) * 1 := mul_le_mul_of_nonneg_left h6 (by positivity)
    _ ≤ _ := by rw [mul_one]; exact pow_le_pow_left₀ (abs_nonneg _) hub _

theorem eig_nonneg (h : Ready S g s) (hE : IsEigenPairs s.L e U) (k : Fin n) : 0 ≤ e k := by
  have h1 := Weyl.quad_basis hE (Pi.single k 1)
  have h2 := (ready_lap h).2 (U *ᵥ Pi.single k 1)
  rw [h1] at h2
  simpa [Pi.single_apply, ite_pow] using h2

end Locality

open Locality

open Classical in
/-- **C121** Exact filtering with a kernel that is within `ε` of a polynomial of degree `K` at the frequencies of the graph: the energy of
the result beyond `K` hops from the signal is at most `ε²` times that of the signal. -/
theorem C121_spread (h : Ready S g s) (hn : 2 ≤ n) (hb : s.basis = some ⟨n, e, U⟩) (ψ : ℝ → ℝ) (order : ℕ) {p : ℝ[X]} {K : ℕ}
    (hp : p.natDegree ≤ K) {ε : ℝ} (hε : ∀ k, |ψ (e k) - p.eval (e k)| ≤ ε) (x : Fin n → ℝ) :
    ∃ y : Fin n → ℝ, (Bank.ofArg (.one (Kernel.pointwise ψ))).filter S (Arr.of1 x) .exact order s = (.ok (Arr.of1 y), s) ∧
      ∑ v with FarFrom g.W.dense K x v, y v ^ 2 ≤ ε ^ 2 * ∑ v, x v ^ 2 :=
  ⟨_, filter_pointwise h hn hb ψ order x, spread h (h.pairs hb).1 (fun k => ψ (e k)) hp hε x⟩

open Classical in
/-- **C121** Heat diffusion (`filters.Heat`, exact): the energy beyond `K` hops is at most `(scale^(K+1) / (K+1)!)²` times that of the
signal, whatever the graph. -/
theorem C121_heat (h : Ready S g s) (hn : 2 ≤ n) (hb : s.basis = some ⟨n, e, U⟩) {lmax : ℝ} (hl : 0 < lmax) (hle : ∀ k, e k ≤ lmax)
    {scale : ℝ} (hs : 0 ≤ scale) (order K : ℕ) (x : Fin n → ℝ) :
    ∃ y : Fin n → ℝ, (heat lmax [scale] none).filter S (Arr.of1 x) .exact order s = (.ok (Arr.of1 y), s) ∧
      ∑ v with FarFrom g.W.dense K x v, y v ^ 2 ≤ (scale ^ (K + 1) / (K + 1).factorial) ^ 2 * ∑ v, x v ^ 2 := by
  rw [heat_one]
  refine C121_spread h hn hb _ order (p := expTaylor (scale / lmax) K) (expTaylor_degree _ _) (fun k => ?_) x
  have he := Locality.eig_nonneg h (h.pairs hb).1 k
  have h0 : 0 ≤ scale * e k / lmax := by positivity
  have h1 : scale * e k / lmax ≤ scale := by
    rw [div_le_iff₀ hl]; exact mul_le_mul_of_nonneg_left (hle k) hs
  rw [heatKernel_eq h0, expTaylor_eval, show scale / lmax * e k = scale * e k / lmax by ring]
  refine (exp_taylor (K + 1) h0).trans ?_
  exact div_le_div_of_nonneg_right (pow_le_pow_left₀ h0 h1 _) (by positivity)

open Classical in
/-- **C121** Tikhonov regression with all the vertices measured: changing some of the measurements changes the result beyond `K` hops by
at most `(tau M / (2 + tau M))^(K+1)` times the change (Euclidean norms, squared here), where `M` bounds the frequencies. -/
theorem C121_regression (h : Ready S g s) {cg} (hcg : ExactCG cg) {M : ℝ} (hM : ∀ l, IsEigenvalue s.L l → l ≤ M) {tau : ℝ} (ht : 0 < tau) {b b' : Bool} {y y' x x' : Fin n → ℝ}
    (hx : regression1 cg b s.L y (fun _ : Fin n => true) tau = .ok x) (hx' : regression1 cg b' s.L y' (fun _ : Fin n => true) tau = .ok x') (K : ℕ) :
    ∑ v with FarFrom g.W.dense K (y - y') v, (x v - x' v) ^ 2 ≤ ((tau * M / (2 + tau * M)) ^ (K + 1)) ^ 2 * ∑ v, (y v - y' v) ^ 2 := by
  obtain ⟨e, U, -, h', hb, hL, -, hE, -⟩ := C113_computed h
  have hUU : U * Uᵀ = 1 := mul_eq_one_comm.1 hE.orthonormal
  have hev := Locality.eig_nonneg h hE
  have hco : ∀ k, (Uᵀ *ᵥ (x - x')) k = 1 / (1 + tau * e k) * (Uᵀ *ᵥ (y - y')) k := by
    intro k
    have h1 : (x - x') + tau • (s.L *ᵥ (x - x')) = y - y' := by
      funext v
      have e1 := congrFun (normal_eq h hcg ht hx) v
      have e2 := congrFun (normal_eq h hcg ht hx') v
      rw [penalised_mulVec] at e1 e2
      simp only [if_true, mask] at e1 e2
      simp only [Pi.add_apply, Pi.sub_apply, Pi.smul_apply, smul_eq_mul, Matrix.mulVec_sub]
      linarith
    have h2 : ∀ z, (Uᵀ *ᵥ (s.L *ᵥ z)) k = e k * (Uᵀ *ᵥ z) k := by
      intro z
      have hz : z = U *ᵥ (Uᵀ *ᵥ z) := by rw [Matrix.mulVec_mulVec, hUU, Matrix.one_mulVec]
      conv_lhs => rw [hz]
      rw [Matrix.mulVec_mulVec _ s.L, hE.eig, ← Matrix.mulVec_mulVec, Matrix.mulVec_mulVec _ Uᵀ, hE.orthonormal, Matrix.one_mulVec, Matrix.mulVec_diagonal]
    have hpos : 1 + tau * e k ≠ 0 := by have := mul_nonneg ht.le (hev k); linarith
    rw [← h1, Matrix.mulVec_add, Matrix.mulVec_smul]
    simp only [Pi.add_apply, Pi.smul_apply, smul_eq_mul, h2]
    field_simp
  have hxx : x - x' = U *ᵥ fun k => 1 / (1 + tau * e k) * (Uᵀ *ᵥ (y - y')) k := by
    rw [← show Uᵀ *ᵥ (x - x') = fun k => 1 / (1 + tau * e k) * (Uᵀ *ᵥ (y - y')) k from funext hco, Matrix.mulVec_mulVec, hUU, Matrix.one_mulVec]
  have := spread h hE (fun k => 1 / (1 + tau * e k)) (geometric_degree tau (1 + tau * M / 2) K)
    (fun k => geometric_near ht (hev k) (hM _ ?_) K) (y - y')
  · rw [← hxx] at this
    exact this
  · refine ⟨fun i => U i k, ?_, ?_⟩
    · intro h0
      have := congrFun (congrFun hE.orthonormal k) k
      rw [Matrix.mul_apply, Matrix.one_apply_eq] at this
      have hz : ∀ i, U i k = 0 := fun i => congrFun h0 i
      simp [Matrix.transpose_apply, hz] at this
    · funext i
      have := congrFun (congrFun hE.eig i) k
      rw [Matrix.mul_apply, Matrix.mul_diagonal] at this
      simp only [Pi.smul_apply, smul_eq_mul]
      rw [mul_comm, ← this]; rfl

/-- The hypotheses hold together on the path with 4 vertices, for a signal at one end: the other end is more than 1 hop away. -/
example : ∃ (S : Solvers 4) (g : Graph 4 ℝ) (s : GState 4) (e : Fin 4 → ℝ) (U : Matrix (Fin 4) (Fin 4) ℝ) (lmax : ℝ)
    (cg : Matrix (Fin 4) (Fin 4) ℝ → (Fin 4 → ℝ) → Fin 4 → ℝ) (x x' : Fin 4 → ℝ),
    g.W.dense = path4 ∧ Ready S g s ∧ s.basis = some ⟨4, e, U⟩ ∧ 0 < lmax ∧ (∀ k, e k ≤ lmax) ∧ ExactCG cg ∧
    regression1 cg false s.L ![1, 0, 0, 0] (fun _ : Fin 4 => true) 2 = .ok x ∧ regression1 cg false s.L ![0, 0, 0, 0] (fun _ : Fin 4 => true) 2 = .ok x' ∧
    FarFrom path4 1 (![1, 0, 0, 0] : Fin 4 → ℝ) 3 ∧ ¬ FarFrom path4 1 (![1, 0, 0, 0] : Fin 4 → ℝ) 1 := by
  obtain ⟨S, g, s, hd, h, -, -⟩ := exists_ready path4 path4_nonneg (by norm_num)
  obtain ⟨e, U, -, h', hb, -, -, -, -⟩ := C113_computed h
  obtain ⟨cg, hcg⟩ := exists_cg 4
  obtain ⟨hist, hs⟩ := h'.reached
  obtain ⟨x, hx, -⟩ := C59_minimises h'.sound h'.built hist hs h'.nonneg hcg false ![1, 0, 0, 0] (fun _ : Fin 4 => true) (tau := 2) (by norm_num)
  obtain ⟨x', hx', -⟩ := C59_minimises h'.sound h'.built hist hs h'.nonneg hcg false ![0, 0, 0, 0] (fun _ : Fin 4 => true) (tau := 2) (by norm_num)
  refine ⟨S, g, _, e, U, 1 + ∑ k, |e k|, cg, x, x', hd, h', hb, by positivity, fun k => ?_, hcg, hx, hx', ?_, ?_⟩
  · have := Finset.single_le_sum (f := fun k => |e k|) (fun i _ => abs_nonneg _) (Finset.mem_univ k)
    have h1 := le_abs_self (e k)
    have this : |e k| ≤ ∑ i, |e i| := this
    linarith
  · intro w hw
    have : w = 0 := by fin_cases w <;> simp at hw ⊢
    subst this
    rintro ⟨l, hl, h2⟩
    have h2 : l = 0 := h2
    subst h2
    simp [path4] at hl
  · intro hf
    exact hf 0 (by simp) ⟨0, .inr (.inl (by simp [path4])), rfl⟩

end PyGSP
