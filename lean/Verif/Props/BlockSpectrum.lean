import Verif.Props.RandomConnectivity
import Verif.Lemmas.Noise
import Verif.Lemmas.Weyl
import Verif.Lemmas.Frobenius
import Verif.Props.Bottleneck

/-!
# C141: the frequencies and the second Fourier mode of the samples of StochasticBlockModel
-/

namespace PyGSP

open Matrix Spec Gen MeasureTheory Random RandomGraph

variable {N k : ℕ}

/-- The mean of the weights of the samples of the undirected block model: the probability of the blocks, zero on the diagonal without self-loops. -/
noncomputable def Spec.meanWeights (M : Matrix (Fin k) (Fin k) ℝ) (z : Fin N → Fin k) (loops : Bool) : Matrix (Fin N) (Fin N) ℝ :=
  Matrix.of fun i j => if i ≠ j ∨ loops = true then M (z i) (z j) else 0

namespace BlockNoise

/-- the pair of two vertices -/
def pairOf (loops : Bool) (i j : Fin N) (h : i ≠ j ∨ loops = true) : Pair N false loops :=
  ⟨(max i j, min i j), ⟨h.imp_left fun h e => h (by
    rcases le_total i j with q | q
    · rw [max_eq_right q, min_eq_left q] at e; exact e.symm
    · rw [max_eq_left q, min_eq_right q] at e; exact e), .inl min_le_max⟩⟩

theorem pairOf_eq {loops : Bool} {i j a b : Fin N} (h : i ≠ j ∨ loops = true) (h' : a ≠ b ∨ loops = true) (e : pairOf loops i j h = pairOf loops a b h') :
    (i = a ∧ j = b) ∨ (i = b ∧ j = a) := by
  have e1 : max i j = max a b := congrArg (fun q : Pair N false loops => q.1.1) e
  have e2 : min i j = min a b := congrArg (fun q : Pair N false loops => q.1.2) e
  rcases le_total i j with q | q <;> rcases le_total a b with r | r <;> simp only [max_eq_left, max_eq_right, min_eq_left, min_eq_right, q, r] at e1 e2
  · exact .inl ⟨e2, e1⟩
  · exact .inr ⟨e2, e1⟩
  · exact .inr ⟨e1, e2⟩
  · exact .inl ⟨e1, e2⟩

theorem pairOf_symm {loops : Bool} {i j : Fin N} (h : i ≠ j ∨ loops = true) (h' : j ≠ i ∨ loops = true) : pairOf loops i j h = pairOf loops j i h' :=
  Subtype.ext (Prod.ext (max_comm _ _) (min_comm _ _))

variable (M : Matrix (Fin k) (Fin k) ℝ) (z : Fin N → Fin k) (loops : Bool)

/-- the deviation of a weight from its mean -/
noncomputable def dev (u : ℕ → ℝ) (i j : Fin N) : ℝ :=
  if h : i ≠ j ∨ loops = true then centred (edgeIdx false loops 0) (prob M z false loops) (pairOf loops i j h) u else 0

variable {M z loops}

theorem dev_symm (u : ℕ → ℝ) (i j : Fin N) : dev M z loops u i j = dev M z loops u j i := by
  unfold dev
  by_cases h : i ≠ j ∨ loops = true
  · rw [dif_pos h, dif_pos (h.imp_left Ne.symm), pairOf_symm h (h.imp_left Ne.symm)]
  · rw [dif_neg h, dif_neg fun h' => h (h'.imp_left Ne.symm)]

theorem dev_measurable (i j : Fin N) : Measurable fun u => dev M z loops u i j := by
  unfold dev
  by_cases h : i ≠ j ∨ loops = true
  · simp only [dif_pos h]
    exact centred_measurable _ _ _
  · simp only [dif_neg h]
    exact measurable_const

theorem dev_abs (hM : ∀ i j, 0 ≤ M i j ∧ M i j ≤ 1) (u : ℕ → ℝ) (i j : Fin N) : |dev M z loops u i j| ≤ 1 := by
  unfold dev
  by_cases h : i ≠ j ∨ loops = true
  · rw [dif_pos h]
    exact centred_abs (fun e => prob_mem hM e) _ _
  · rw [dif_neg h]
    simp

theorem prob_pairOf (hMs : ∀ i j, M i j = M j i) {i j : Fin N} (h : i ≠ j ∨ loops = true) : prob M z false loops (pairOf loops i j h) = M (z i) (z j) := by
  unfold prob pairOf
  rcases le_total i j with q | q
  · simp only [max_eq_right q, min_eq_left q]
    exact hMs _ _
  · simp only [max_eq_left q, min_eq_right q]

theorem dev_sq (hM : ∀ i j, 0 ≤ M i j ∧ M i j ≤ 1) (hMs : ∀ i j, M i j = M j i) (i j : Fin N) :
    ∫ u, dev M z loops u i j ^ 2 ∂draws = meanWeights M z loops i j * (1 - meanWeights M z loops i j) := by
  unfold dev meanWeights
  by_cases h : i ≠ j ∨ loops = true
  · simp only [dif_pos h, Matrix.of_apply, if_pos h]
    rw [centred_sq (fun e => prob_mem hM e), prob_pairOf hMs h]
  · simp only [dif_neg h, Matrix.of_apply, if_neg h]
    simp

theorem dev_mean (hM : ∀ i j, 0 ≤ M i j ∧ M i j ≤ 1) (i j : Fin N) : ∫ u, dev M z loops u i j ∂draws = 0 := by
  unfold dev
  by_cases h : i ≠ j ∨ loops = true
  · simp only [dif_pos h]
    exact centred_integral (fun e => prob_mem hM e) _
  · simp only [dif_neg h]
    simp

theorem idx_inj : Function.Injective (edgeIdx (N := N) false loops 0) := fun e e' h => (edgeIdx_inj false loops 0 e 0 e' h).2

theorem dev_once (hM : ∀ i j, 0 ≤ M i j ∧ M i j ≤ 1) {i j a1 a2 b1 b2 c1 c2 : Fin N} (ha : ¬ ((a1 = i ∧ a2 = j) ∨ (a1 = j ∧ a2 = i)))
    (hb : ¬ ((b1 = i ∧ b2 = j) ∨ (b1 = j ∧ b2 = i))) (hc : ¬ ((c1 = i ∧ c2 = j) ∨ (c1 = j ∧ c2 = i))) :
    ∫ u, dev M z loops u i j * (dev M z loops u a1 a2 * dev M z loops u b1 b2 * dev M z loops u c1 c2) ∂draws = 0 := by
  unfold dev
  by_cases h : i ≠ j ∨ loops = true
  swap
  · simp only [dif_neg h]; simp
  by_cases h1 : a1 ≠ a2 ∨ loops = true
  swap
  · simp only [dif_neg h1]; simp
  by_cases h2 : b1 ≠ b2 ∨ loops = true
  swap
  · simp only [dif_neg h2]; simp
  by_cases h3 : c1 ≠ c2 ∨ loops = true
  swap
  · simp only [dif_neg h3]; simp
  simp only [dif_pos h, dif_pos h1, dif_pos h2, dif_pos h3]
  exact centred_one idx_inj (fun e => prob_mem hM e) (fun e => ha (pairOf_eq _ _ e)) (fun e => hb (pairOf_eq _ _ e)) fun e => hc (pairOf_eq _ _ e)

/-- closed walks of length four whose opposite vertices differ have mean zero -/
theorem quartic_zero (hM : ∀ i j, 0 ≤ M i j ∧ M i j ≤ 1) {i j a b : Fin N} (h1 : i ≠ a) (h2 : j ≠ b) :
    ∫ u, dev M z loops u i j * dev M z loops u j a * dev M z loops u a b * dev M z loops u b i ∂draws = 0 := by
  by_cases h : i = b ∧ j = a
  · obtain ⟨rfl, rfl⟩ := h
    have := dev_once (M := M) (z := z) (loops := loops) hM (i := j) (j := j) (a1 := i) (a2 := j) (b1 := j) (b2 := i) (c1 := i) (c2 := i)
      (by tauto) (by tauto) (by tauto)
    rw [← this]
    congr 1
    funext u
    ring
  · have := dev_once (M := M) (z := z) (loops := loops) hM (i := i) (j := j) (a1 := j) (a2 := a) (b1 := a) (b2 := b) (c1 := b) (c2 := i)
      (by rintro (⟨q, r⟩ | ⟨q, r⟩)
          · exact h1 (q.symm.trans r.symm)
          · exact h1 r.symm)
      (by rintro (⟨q, r⟩ | ⟨q, r⟩)
          · exact h1 q.symm
          · exact h ⟨r.symm, q.symm⟩)
      (by rintro (⟨q, r⟩ | ⟨q, r⟩)
          · exact h2 (r.symm.trans q.symm)
          · exact h2 q.symm)
    rw [← this]
    congr 1
    funext u
    ring

theorem term_bound (hM : ∀ i j, 0 ≤ M i j ∧ M i j ≤ 1) (hMs : ∀ i j, M i j = M j i) {v : ℝ} (hv0 : 0 ≤ v) (hv : ∀ i j, M i j * (1 - M i j) ≤ v) (i j a b : Fin N) :
    ∫ u, dev M z loops u i j * dev M z loops u j a * dev M z loops u a b * dev M z loops u b i ∂draws ≤ (if i = a then v else 0) + if j = b then v else 0 := by
  have hvar : ∀ i j, ∫ u, dev M z loops u i j ^ 2 ∂draws ≤ v := fun i j => by
    rw [dev_sq hM hMs]
    unfold meanWeights
    rw [Matrix.of_apply]
    split
    · exact hv _ _
    · simpa using hv0
  have hint : ∀ i j, Integrable (fun u => dev M z loops u i j ^ 2) draws := fun i j =>
    integrable_of_abs ((dev_measurable i j).pow_const 2) fun u => by rw [abs_pow]; exact pow_le_one₀ (abs_nonneg _) (dev_abs hM u i j)
  have hle : ∀ x y c d : Fin N, ∫ u, dev M z loops u x y ^ 2 * dev M z loops u c d ^ 2 ∂draws ≤ v := fun x y c d => by
    refine (integral_mono_of_nonneg (.of_forall fun u => by positivity) (hint x y) (.of_forall fun u => ?_)).trans (hvar x y)
    have : dev M z loops u c d ^ 2 ≤ 1 := by
      rw [← sq_abs]; exact pow_le_one₀ (abs_nonneg _) (dev_abs hM u c d)
    exact mul_le_of_le_one_right (sq_nonneg _) this
  by_cases h1 : i = a
  · subst h1
    have e : (fun u => dev M z loops u i j * dev M z loops u j i * dev M z loops u i b * dev M z loops u b i) = fun u => dev M z loops u i j ^ 2 * dev M z loops u i b ^ 2 := by
      funext u
      rw [dev_symm u j i, dev_symm u b i]
      ring
    rw [e, if_pos rfl]
    refine (hle i j i b).trans (le_add_of_nonneg_right ?_)
    split <;> simp [hv0]
  · by_cases h2 : j = b
    · subst h2
      have e : (fun u => dev M z loops u i j * dev M z loops u j a * dev M z loops u a j * dev M z loops u j i) = fun u => dev M z loops u i j ^ 2 * dev M z loops u j a ^ 2 := by
        funext u
        rw [dev_symm u j i, dev_symm u a j]
        ring
      rw [e, if_neg h1, if_pos rfl, zero_add]
      exact hle i j j a
    · rw [if_neg h1, if_neg h2, quartic_zero hM h1 h2, zero_add]

/-- the matrix of the deviations -/
noncomputable def noise (M : Matrix (Fin k) (Fin k) ℝ) (z : Fin N → Fin k) (loops : Bool) (u : ℕ → ℝ) : Matrix (Fin N) (Fin N) ℝ := Matrix.of fun i j => dev M z loops u i j

theorem frob_square (u : ℕ → ℝ) : frob (noise M z loops u * noise M z loops u) =
    ∑ i, ∑ a, ∑ j, ∑ b, dev M z loops u i j * dev M z loops u j a * dev M z loops u a b * dev M z loops u b i := by
  unfold frob
  refine Finset.sum_congr rfl fun i _ => Finset.sum_congr rfl fun a _ => ?_
  rw [Matrix.mul_apply, sq, Finset.sum_mul_sum]
  refine Finset.sum_congr rfl fun j _ => Finset.sum_congr rfl fun b _ => ?_
  simp only [noise, Matrix.of_apply]
  rw [dev_symm u a b, dev_symm u b i]
  ring

theorem term_integrable (hM : ∀ i j, 0 ≤ M i j ∧ M i j ≤ 1) (i j a b : Fin N) :
    Integrable (fun u => dev M z loops u i j * dev M z loops u j a * dev M z loops u a b * dev M z loops u b i) draws := by
  refine integrable_of_abs ((((dev_measurable i j).mul (dev_measurable j a)).mul (dev_measurable a b)).mul (dev_measurable b i)) fun u => ?_
  rw [abs_mul, abs_mul, abs_mul]
  exact mul_le_one₀ (mul_le_one₀ (mul_le_one₀ (dev_abs hM u _ _) (abs_nonneg _) (dev_abs hM u _ _)) (abs_nonneg _) (dev_abs hM u _ _)) (abs_nonneg _) (dev_abs hM u _ _)

theorem frob_integrable (hM : ∀ i j, 0 ≤ M i j ∧ M i j ≤ 1) : Integrable (fun u => frob (noise M z loops u * noise M z loops u)) draws := by
  simp only [frob_square]
  exact integrable_finset_sum _ fun i _ => integrable_finset_sum _ fun a _ => integrable_finset_sum _ fun j _ => integrable_finset_sum _ fun b _ => term_integrable hM i j a b

theorem frob_mean (hM : ∀ i j, 0 ≤ M i j ∧ M i j ≤ 1) (hMs : ∀ i j, M i j = M j i) {v : ℝ} (hv0 : 0 ≤ v) (hv : ∀ i j, M i j * (1 - M i j) ≤ v) :
    ∫ u, frob (noise M z loops u * noise M z loops u) ∂draws ≤ 2 * N ^ 3 * v := by
  simp only [frob_square]
  rw [integral_finset_sum _ fun i _ => integrable_finset_sum _ fun a _ => integrable_finset_sum _ fun j _ => integrable_finset_sum _ fun b _ => term_integrable hM i j a b]
  calc _ ≤ ∑ i : Fin N, ∑ a : Fin N, ∑ j : Fin N, ∑ b : Fin N, ((if i = a then v else 0) + if j = b then v else 0) := by
        refine Finset.sum_le_sum fun i _ => ?_
        rw [integral_finset_sum _ fun a _ => integrable_finset_sum _ fun j _ => integrable_finset_sum _ fun b _ => term_integrable hM i j a b]
        refine Finset.sum_le_sum fun a _ => ?_
        rw [integral_finset_sum _ fun j _ => integrable_finset_sum _ fun b _ => term_integrable hM i j a b]
        refine Finset.sum_le_sum fun j _ => ?_
        rw [integral_finset_sum _ fun b _ => term_integrable hM i j a b]
        exact Finset.sum_le_sum fun b _ => term_bound hM hMs hv0 hv i j a b
    _ = 2 * N ^ 3 * v := by
        simp only [Finset.sum_add_distrib, Finset.sum_const, Finset.card_univ, Fintype.card_fin, Finset.sum_ite_eq, Finset.mem_univ, if_true, nsmul_eq_mul]
        simp only [← Finset.mul_sum, Finset.sum_ite_eq, Finset.mem_univ, if_true, Finset.sum_const, Finset.card_univ, Fintype.card_fin, nsmul_eq_mul]
        ring

/-- outside of a small set the noise is small as a quadratic form -/
theorem noise_tail (hM : ∀ i j, 0 ≤ M i j ∧ M i j ≤ 1) (hMs : ∀ i j, M i j = M j i) {v : ℝ} (hv0 : 0 ≤ v) (hv : ∀ i j, M i j * (1 - M i j) ≤ v) {t : ℝ} (ht : 0 < t) :
    draws.real {u | t ^ 4 ≤ frob (noise M z loops u * noise M z loops u)} ≤ 2 * N ^ 3 * v / t ^ 4 := by
  rw [le_div_iff₀ (by positivity), mul_comm]
  exact (mul_meas_ge_le_integral_of_nonneg (.of_forall fun u => frob_nonneg _) (frob_integrable hM) _).trans (frob_mean hM hMs hv0 hv)

theorem noise_quad {X : Matrix (Fin N) (Fin N) ℝ} (hX : ∀ i j, X i j = X j i) {t : ℝ} (ht : 0 < t) (h : frob (X * X) < t ^ 4) (x : Fin N → ℝ) :
    |x ⬝ᵥ (X *ᵥ x)| ≤ t * (x ⬝ᵥ x) := by
  have hxx : 0 ≤ x ⬝ᵥ x := by simp only [dotProduct]; exact Finset.sum_nonneg fun i _ => mul_self_nonneg _
  have cs : ∀ y w : Fin N → ℝ, (y ⬝ᵥ w) ^ 2 ≤ (y ⬝ᵥ y) * (w ⬝ᵥ w) := fun y w => by
    have := Finset.sum_mul_sq_le_sq_mul_sq Finset.univ y w
    simpa only [dotProduct, ← sq] using this
  have h1 : (x ⬝ᵥ (X *ᵥ x)) ^ 2 ≤ (x ⬝ᵥ x) * ((X *ᵥ x) ⬝ᵥ (X *ᵥ x)) := cs _ _
  have h2 : (X *ᵥ x) ⬝ᵥ (X *ᵥ x) = x ⬝ᵥ ((X * X) *ᵥ x) := by
    have hT : Xᵀ = X := by ext i j; exact hX j i
    rw [← Matrix.mulVec_mulVec, Matrix.dotProduct_mulVec x, ← Matrix.mulVec_transpose, hT]
  have h3 : (x ⬝ᵥ ((X * X) *ᵥ x)) ^ 2 ≤ (x ⬝ᵥ x) * (((X * X) *ᵥ x) ⬝ᵥ ((X * X) *ᵥ x)) := cs _ _
  have h4 : ((X * X) *ᵥ x) ⬝ᵥ ((X * X) *ᵥ x) ≤ frob (X * X) * (x ⬝ᵥ x) := by
    have := frob_mulVec (X * X) x
    simpa only [dotProduct, ← sq] using this
  rw [h2] at h1
  set q := x ⬝ᵥ x
  set r := x ⬝ᵥ ((X * X) *ᵥ x)
  set w := x ⬝ᵥ (X *ᵥ x)
  have hr : r ^ 2 ≤ (t ^ 2 * q) ^ 2 := by
    calc r ^ 2 ≤ q * (frob (X * X) * q) := h3.trans (mul_le_mul_of_nonneg_left h4 hxx)
      _ ≤ q * (t ^ 4 * q) := mul_le_mul_of_nonneg_left (mul_le_mul_of_nonneg_right h.le hxx) hxx
      _ = _ := by ring
  have hr' : r ≤ t ^ 2 * q := (le_abs_self _).trans (abs_le_of_sq_le_sq hr (by positivity))
  have hw : w ^ 2 ≤ (t * q) ^ 2 := by
    calc w ^ 2 ≤ q * r := h1
      _ ≤ q * (t ^ 2 * q) := mul_le_mul_of_nonneg_left hr' hxx
      _ = _ := by ring
  exact abs_le_of_sq_le_sq hw (by positivity)

theorem dev_two (hM : ∀ i j, 0 ≤ M i j ∧ M i j ≤ 1) {i j a b : Fin N} (h : ¬ ((i = a ∧ j = b) ∨ (i = b ∧ j = a))) :
    ∫ u, dev M z loops u i j * dev M z loops u a b ∂draws = 0 := by
  unfold dev
  by_cases h1 : i ≠ j ∨ loops = true
  swap
  · simp only [dif_neg h1]; simp
  by_cases h2 : a ≠ b ∨ loops = true
  swap
  · simp only [dif_neg h2]; simp
  simp only [dif_pos h1, dif_pos h2]
  exact centred_two idx_inj (fun e => prob_mem hM e) fun e => h (pairOf_eq _ _ e)

section

variable {pop : ℕ → Pop N} {nTry : Option ℕ} {lt : LapType} {G : (ℕ → ℝ) → Graph N ℝ}

theorem dense_dev (hN : 0 < N) (hM : ∀ i j, 0 ≤ M i j ∧ M i j ≤ 1) (hMs : ∀ i j, M i j = M j i) (ht : nTry ≠ some 0)
    (hG : ∀ u, sbm M z false loops u false pop nTry lt = some (.ok (G u))) (u : ℕ → ℝ) (i j : Fin N) :
    (G u).W.dense i j = meanWeights M z loops i j + dev M z loops u i j := by
  classical
  have key : ∀ i j : Fin N, j ≤ i → (G u).W.dense i j = meanWeights M z loops i j + dev M z loops u i j := by
    intro i j hji
    rw [dense_eq hN hM ht hG u]
    simp only [matOf, Matrix.of_apply, hji, or_true, if_true]
    unfold meanWeights dev
    by_cases h : i ≠ j ∨ loops = true
    · rw [Matrix.of_apply, if_pos h, dif_pos h, centred, prob_pairOf hMs h]
      have e1 : (pairOf loops i j h).1 = (i, j) := Prod.ext (max_eq_left hji) (min_eq_right hji)
      have : (∃ e ∈ successes (edgeIdx false loops) (prob M z false loops) u 0, e.1 = (i, j)) ↔ u (edgeIdx false loops 0 (pairOf loops i j h)) < prob M z false loops (pairOf loops i j h) := by
        rw [← mem_successes]
        constructor
        · rintro ⟨e, he, e2⟩
          rwa [show pairOf loops i j h = e from Subtype.ext (e1.trans e2.symm)]
        · exact fun he => ⟨_, he, e1⟩
      rw [add_sub_cancel, hit, if_congr this rfl rfl]
    · rw [Matrix.of_apply, if_neg h, dif_neg h, add_zero, if_neg]
      rintro ⟨e, -, e2⟩
      have := e.2.1
      rw [e2] at this
      exact h this
  rcases le_total j i with h | h
  · exact key i j h
  · have h1 := key j i h
    have h2 : (G u).W.dense i j = (G u).W.dense j i := by rw [dense_eq hN hM ht hG u, mat_symm]
    have h3 : meanWeights M z loops i j = meanWeights M z loops j i := by
      unfold meanWeights
      rw [Matrix.of_apply, Matrix.of_apply, hMs (z i) (z j)]
      exact if_congr (or_congr_left ne_comm) rfl rfl
    rw [h2, h1, h3, dev_symm]

theorem dirichlet_dev (hN : 0 < N) (hM : ∀ i j, 0 ≤ M i j ∧ M i j ≤ 1) (hMs : ∀ i j, M i j = M j i) (ht : nTry ≠ some 0)
    (hG : ∀ u, sbm M z false loops u false pop nTry lt = some (.ok (G u))) (u : ℕ → ℝ) (x : Fin N → ℝ) :
    dirichlet (G u).W.dense x - dirichlet (meanWeights M z loops) x = 1 / 2 * ∑ i, ∑ j, dev M z loops u i j * (x i - x j) ^ 2 := by
  unfold dirichlet
  rw [← mul_sub, ← Finset.sum_sub_distrib]
  congr 1
  refine Finset.sum_congr rfl fun i _ => ?_
  rw [← Finset.sum_sub_distrib]
  refine Finset.sum_congr rfl fun j _ => ?_
  rw [dense_dev hN hM hMs ht hG]
  ring

theorem half_quad {X : Fin N → Fin N → ℝ} (hX : ∀ i j, X i j = X j i) (x : Fin N → ℝ) :
    1 / 2 * ∑ i, ∑ j, X i j * (x i - x j) ^ 2 = ∑ i, (∑ j, X i j) * x i ^ 2 - x ⬝ᵥ (Matrix.of X *ᵥ x) := by
  have e1 : ∑ i, ∑ j, X i j * (x i - x j) ^ 2 = ∑ i, (∑ j, X i j) * x i ^ 2 + ∑ i, ∑ j, X i j * x j ^ 2 - 2 * ∑ i, ∑ j, x i * (X i j * x j) := by
    rw [Finset.mul_sum, ← Finset.sum_add_distrib, ← Finset.sum_sub_distrib]
    refine Finset.sum_congr rfl fun i _ => ?_
    rw [Finset.sum_mul, Finset.mul_sum, ← Finset.sum_add_distrib, ← Finset.sum_sub_distrib]
    refine Finset.sum_congr rfl fun j _ => ?_
    ring
  have e2 : ∑ i, ∑ j, X i j * x j ^ 2 = ∑ i, (∑ j, X i j) * x i ^ 2 := by
    rw [Finset.sum_comm]
    refine Finset.sum_congr rfl fun i _ => ?_
    rw [Finset.sum_mul]
    exact Finset.sum_congr rfl fun j _ => by rw [hX]
  have e3 : x ⬝ᵥ (Matrix.of X *ᵥ x) = ∑ i, ∑ j, x i * (X i j * x j) := by
    simp only [dotProduct, Matrix.mulVec, Matrix.of_apply, Finset.mul_sum]
  rw [e1, e2, e3]
  ring

end

end BlockNoise

open BlockNoise

section

variable {M : Matrix (Fin k) (Fin k) ℝ} {z : Fin N → Fin k} {loops : Bool} {pop : ℕ → Pop N} {nTry : Option ℕ} {lt : LapType} {G : (ℕ → ℝ) → Graph N ℝ}

/-- **C141** The weights, and the Dirichlet energy of any signal, are right on average; the energy has the variance given by the variances of the independent edges. -/
theorem C141_mean (hN : 0 < N) (hM : ∀ i j, 0 ≤ M i j ∧ M i j ≤ 1) (hMs : ∀ i j, M i j = M j i) (ht : nTry ≠ some 0)
    (hG : ∀ u, sbm M z false loops u false pop nTry lt = some (.ok (G u))) :
    (∀ i j, ∫ u, (G u).W.dense i j ∂draws = meanWeights M z loops i j) ∧
    ∀ x : Fin N → ℝ, ∫ u, dirichlet (G u).W.dense x ∂draws = dirichlet (meanWeights M z loops) x ∧
      ∫ u, (dirichlet (G u).W.dense x - dirichlet (meanWeights M z loops) x) ^ 2 ∂draws =
        1 / 2 * ∑ i, ∑ j, meanWeights M z loops i j * (1 - meanWeights M z loops i j) * (x i - x j) ^ 4 := by
  have hint : ∀ i j, Integrable (fun u => dev M z loops u i j) draws := fun i j => integrable_of_abs (dev_measurable i j) fun u => dev_abs hM u i j
  have hint2 : ∀ i j a b, Integrable (fun u => dev M z loops u i j * dev M z loops u a b) draws := fun i j a b =>
    integrable_of_abs ((dev_measurable i j).mul (dev_measurable a b)) fun u => by
      rw [abs_mul]; exact mul_le_one₀ (dev_abs hM u _ _) (abs_nonneg _) (dev_abs hM u _ _)
  refine ⟨fun i j => ?_, fun x => ⟨?_, ?_⟩⟩
  · simp only [dense_dev hN hM hMs ht hG]
    rw [integral_add (integrable_const _) (hint i j), dev_mean hM]
    simp
  · have e : ∀ u, dirichlet (G u).W.dense x = dirichlet (meanWeights M z loops) x + 1 / 2 * ∑ i, ∑ j, dev M z loops u i j * (x i - x j) ^ 2 := fun u => by
      rw [← dirichlet_dev hN hM hMs ht hG]; ring
    simp only [e]
    have hi : Integrable (fun u => ∑ i, ∑ j, dev M z loops u i j * (x i - x j) ^ 2) draws :=
      integrable_finset_sum _ fun i _ => integrable_finset_sum _ fun j _ => (hint i j).mul_const _
    rw [integral_add (integrable_const _) (hi.const_mul _), integral_const_mul,
      integral_finset_sum _ fun i _ => integrable_finset_sum _ fun j _ => (hint i j).mul_const _]
    have : ∀ i, ∫ u, ∑ j, dev M z loops u i j * (x i - x j) ^ 2 ∂draws = 0 := fun i => by
      rw [integral_finset_sum _ fun j _ => (hint i j).mul_const _]
      exact Finset.sum_eq_zero fun j _ => by rw [integral_mul_const, dev_mean hM, zero_mul]
    simp [this]
  · simp only [dirichlet_dev hN hM hMs ht hG]
    have e : ∀ u, (1 / 2 * ∑ i, ∑ j, dev M z loops u i j * (x i - x j) ^ 2) ^ 2 =
        1 / 4 * ∑ i, ∑ j, ∑ a, ∑ b, dev M z loops u i j * dev M z loops u a b * ((x i - x j) ^ 2 * (x a - x b) ^ 2) := fun u => by
      rw [mul_pow, sq (∑ i, _), Finset.sum_mul]
      norm_num only
      congr 1
      refine Finset.sum_congr rfl fun i _ => ?_
      rw [Finset.sum_mul]
      refine Finset.sum_congr rfl fun j _ => ?_
      rw [Finset.mul_sum]
      refine Finset.sum_congr rfl fun a _ => ?_
      rw [Finset.mul_sum]
      exact Finset.sum_congr rfl fun b _ => by ring
    simp only [e]
    rw [integral_const_mul, integral_finset_sum _ fun i _ => integrable_finset_sum _ fun j _ => integrable_finset_sum _ fun a _ => integrable_finset_sum _ fun b _ => (hint2 i j a b).mul_const _]
    have h4 : ∀ i j, ∫ u, ∑ a, ∑ b, dev M z loops u i j * dev M z loops u a b * ((x i - x j) ^ 2 * (x a - x b) ^ 2) ∂draws =
        2 * (meanWeights M z loops i j * (1 - meanWeights M z loops i j) * (x i - x j) ^ 4) := fun i j => by
      rw [integral_finset_sum _ fun a _ => integrable_finset_sum _ fun b _ => (hint2 i j a b).mul_const _]
      have h5 : ∀ a b, ∫ u, dev M z loops u i j * dev M z loops u a b * ((x i - x j) ^ 2 * (x a - x b) ^ 2) ∂draws =
          ((if a = i then (if b = j then meanWeights M z loops i j * (1 - meanWeights M z loops i j) else 0) else 0) +
          (if a = j then (if b = i then meanWeights M z loops i j * (1 - meanWeights M z loops i j) else 0) else 0)) * (x i - x j) ^ 4 := fun a b => by
        rw [integral_mul_const]
        by_cases hd : i = j
        · subst hd; simp
        by_cases h1 : i = a ∧ j = b
        · obtain ⟨rfl, rfl⟩ := h1
          rw [if_pos rfl, if_pos rfl, if_neg hd, add_zero]
          simp only [← sq]
          rw [dev_sq hM hMs]
          ring
        by_cases h2 : i = b ∧ j = a
        · obtain ⟨rfl, rfl⟩ := h2
          rw [if_pos rfl, if_pos rfl, if_neg (Ne.symm hd), zero_add]
          have e : ∀ u, dev M z loops u i j * dev M z loops u j i = dev M z loops u i j ^ 2 := fun u => by rw [dev_symm u j i]; ring
          simp only [e]
          rw [dev_sq hM hMs]
          ring
        rw [dev_two hM (by tauto), zero_mul]
        have : (if a = i then (if b = j then meanWeights M z loops i j * (1 - meanWeights M z loops i j) else 0) else 0) = 0 := by
          split_ifs <;> tauto
        rw [this]
        have : (if a = j then (if b = i then meanWeights M z loops i j * (1 - meanWeights M z loops i j) else 0) else 0) = 0 := by
          split_ifs <;> tauto
        rw [this]
        ring
      rw [Finset.sum_congr rfl fun a _ => (integral_finset_sum _ fun b _ => (hint2 i j a b).mul_const _).trans (Finset.sum_congr rfl fun b _ => h5 a b)]
      simp only [← Finset.sum_mul, Finset.sum_add_distrib]
      simp
      ring
    rw [Finset.sum_congr rfl fun i _ => (integral_finset_sum _ fun j _ => integrable_finset_sum _ fun a _ => integrable_finset_sum _ fun b _ => (hint2 i j a b).mul_const _).trans
      (Finset.sum_congr rfl fun j _ => h4 i j)]
    simp only [← Finset.mul_sum]
    ring

theorem BlockNoise.degree_dev (hN : 0 < N) (hM : ∀ i j, 0 ≤ M i j ∧ M i j ≤ 1) (hMs : ∀ i j, M i j = M j i) (ht : nTry ≠ some 0)
    (hG : ∀ u, sbm M z false loops u false pop nTry lt = some (.ok (G u))) (u : ℕ → ℝ) (v : Fin N) :
    degree (G u).W v - (∑ j, if v ≠ j ∨ loops = true then M (z v) (z j) else 0) = ∑ j, dev M z loops u v j := by
  have hbuilt : (G u).Built := by
    obtain ⟨-, a, ha, -⟩ := sbm_ok M z false loops u hN (hG u)
    obtain ⟨g, g1, g2, -⟩ := Graph.ofCsr_canonical _ (Sp.canonical_ofDense (sampleW M z false loops u (a * sampleCalls N false loops))) (known hN hG)
    obtain rfl : g = G u := Except.ok.inj (g1.symm.trans ha)
    exact g2
  have hd := dense_eq hN hM ht hG u
  have h1 : (Finset.univ.filter fun j => (G u).W.dense j v ≠ 0) = Finset.univ.filter fun j => (G u).W.dense v j ≠ 0 := by
    refine Finset.filter_congr fun j _ => ?_
    rw [hd, mat_symm]
  rw [C07_degree _ hbuilt, h1, add_self_div_two]
  have h2 : ((Finset.univ.filter fun j => (G u).W.dense v j ≠ 0).card : ℝ) = ∑ j, (G u).W.dense v j := by
    rw [Finset.card_filter, Nat.cast_sum]
    refine Finset.sum_congr rfl fun j _ => ?_
    have : (G u).W.dense v j = 0 ∨ (G u).W.dense v j = 1 := by
      classical
      rw [hd]
      simp only [matOf, Matrix.of_apply]
      split_ifs <;> simp
    rcases this with h | h <;> simp [h]
  rw [h2, ← Finset.sum_sub_distrib]
  refine Finset.sum_congr rfl fun j _ => ?_
  rw [dense_dev hN hM hMs ht hG]
  unfold meanWeights
  rw [Matrix.of_apply, add_sub_cancel_left]

/-- **C141** All the signals at once: up to a small probability, the energy of every signal is the energy on the mean weights, up to a small multiple of its squared norm. -/
theorem C141_all_signals (hN : 0 < N) (hM : ∀ i j, 0 ≤ M i j ∧ M i j ≤ 1) (hMs : ∀ i j, M i j = M j i) (ht : nTry ≠ some 0)
    (hG : ∀ u, sbm M z false loops u false pop nTry lt = some (.ok (G u))) {v : ℝ} (hv0 : 0 ≤ v) (hv : ∀ i j, M i j * (1 - M i j) ≤ v) {t s : ℝ} (ht0 : 0 < t) (hs : 0 ≤ s) :
    draws.real {u | ∃ x : Fin N → ℝ, (t + s) * ∑ i, x i ^ 2 < |dirichlet (G u).W.dense x - dirichlet (meanWeights M z loops) x|} ≤
      2 * N ^ 3 * v / t ^ 4 + N * (2 * Real.exp (-(2 * s ^ 2) / N)) := by
  refine le_trans (measureReal_mono (s₂ := {u | t ^ 4 ≤ frob (noise M z loops u * noise M z loops u)} ∪
    {u | ∃ v, s ≤ |degree (G u).W v - ∑ j, if v ≠ j ∨ loops = true then M (z v) (z j) else 0|}) (fun u hu => ?_) (measure_ne_top _ _)) ?_
  · by_contra hno
    simp only [Set.mem_union, Set.mem_setOf_eq, not_or, not_le, not_exists] at hno
    obtain ⟨h1, h2⟩ := hno
    obtain ⟨x, hx⟩ := hu
    refine absurd hx (not_lt.2 ?_)
    rw [dirichlet_dev hN hM hMs ht hG, half_quad fun i j => dev_symm u i j]
    have q1 : |x ⬝ᵥ (Matrix.of (dev M z loops u) *ᵥ x)| ≤ t * ∑ i, x i ^ 2 := by
      rw [← dot_sum_sq]
      exact noise_quad (fun i j => dev_symm u i j) ht0 h1 x
    have q2 : |∑ i, (∑ j, dev M z loops u i j) * x i ^ 2| ≤ s * ∑ i, x i ^ 2 := by
      rw [Finset.mul_sum]
      refine (Finset.abs_sum_le_sum_abs _ _).trans (Finset.sum_le_sum fun i _ => ?_)
      rw [abs_mul, abs_of_nonneg (sq_nonneg (x i))]
      refine mul_le_mul_of_nonneg_right ?_ (sq_nonneg _)
      rw [← degree_dev hN hM hMs ht hG]
      exact (h2 i).le
    refine (abs_sub _ _).trans ?_
    linarith
  · exact (measureReal_union_le _ _).trans (add_le_add (noise_tail hM hMs hv0 hv ht0) ((C125_degrees hN hM hMs ht hG).2.2 s hs))

theorem BlockNoise.shift {W P : Matrix (Fin N) (Fin N) ℝ} {e e' : Fin N → ℝ} {U U' : Matrix (Fin N) (Fin N) ℝ} (h : IsEigenPairs (combLap W) e U)
    (h' : IsEigenPairs (combLap P) e' U') (he : Monotone e) (he' : Monotone e') {B : ℝ} (hB : ∀ x, dirichlet W x - dirichlet P x ≤ B * ∑ i, x i ^ 2) (l : Fin N) : e l ≤ e' l + B := by
  have h2 : IsEigenPairs (combLap P + B • (1 : Matrix (Fin N) (Fin N) ℝ)) (fun l => e' l + B) U' := by
    refine ⟨h'.orthonormal, ?_⟩
    have : Matrix.diagonal (fun l => e' l + B) = Matrix.diagonal e' + B • (1 : Matrix (Fin N) (Fin N) ℝ) := by
      rw [← Matrix.diagonal_one, ← Matrix.diagonal_smul, Matrix.diagonal_add]
      congr 1
      funext l
      simp
    rw [this, Matrix.add_mul, Matrix.mul_add, h'.eig]
    simp
  refine Weyl.le_of_quad_le h h2 he (fun a b hab => by simpa using he' hab) (fun x => ?_) l
  rw [Matrix.add_mulVec, dotProduct_add, combLap_quad, combLap_quad, Matrix.smul_mulVec, Matrix.one_mulVec, dotProduct_smul, smul_eq_mul, dot_sum_sq]
  linarith [hB x]

/-- **C141** The frequencies: up to the same probability, each frequency `e[k]` of the sample is the frequency `e[k]` of the graph of the mean weights up to `t + s`. -/
theorem C141_frequencies (hM : ∀ i j, 0 ≤ M i j ∧ M i j ≤ 1) (hMs : ∀ i j, M i j = M j i) (ht : nTry ≠ some 0)
    (hG : ∀ u, sbm M z false loops u false pop nTry lt = some (.ok (G u))) {v : ℝ} (hv0 : 0 ≤ v) (hv : ∀ i j, M i j * (1 - M i j) ≤ v) {t s : ℝ} (ht0 : 0 < t) (hs : 0 ≤ s)
    {S' : Solvers N} {g' : Graph N ℝ} {st' : GState N} {e' : Fin N → ℝ} {U' : Matrix (Fin N) (Fin N) ℝ} (h' : Ready S' g' st') (hl' : st'.lapType = .combinatorial)
    (hb' : st'.basis = some ⟨N, e', U'⟩) (hg' : g'.W.dense = meanWeights M z loops) :
    draws.real {u | ∃ (S : Solvers N) (st : GState N) (e : Fin N → ℝ) (U : Matrix (Fin N) (Fin N) ℝ), Ready S (G u) st ∧ st.lapType = .combinatorial ∧
        st.basis = some ⟨N, e, U⟩ ∧ ∃ l, t + s < |e l - e' l|} ≤
      2 * N ^ 3 * v / t ^ 4 + N * (2 * Real.exp (-(2 * s ^ 2) / N)) := by
  refine le_trans (measureReal_mono (fun u hu => ?_) (measure_ne_top _ _)) (C141_all_signals h'.pos hM hMs ht hG hv0 hv ht0 hs)
  by_contra hno
  simp only [Set.mem_setOf_eq, not_exists, not_lt] at hno
  obtain ⟨S, st, e, U, h, hl, hb, l, hlt⟩ := hu
  obtain ⟨p1, m1⟩ := h.pairs hb
  obtain ⟨p2, m2⟩ := h'.pairs hb'
  rw [h.comb hl] at p1
  rw [h'.comb hl', hg'] at p2
  refine absurd hlt (not_lt.2 (abs_le.2 ⟨?_, ?_⟩))
  · have := shift p2 p1 m2 m1 (B := t + s) (fun x => by have := (abs_le.1 (hno x)).1; linarith) l
    linarith
  · have := shift p1 p2 m1 m2 (B := t + s) (fun x => by have := (abs_le.1 (hno x)).2; linarith) l
    linarith

end

/-! ### One community -/

section

variable {loops : Bool} {pop : ℕ → Pop N} {nTry : Option ℕ} {lt : LapType} {G : (ℕ → ℝ) → Graph N ℝ}

theorem BlockNoise.one_energy {M : Matrix (Fin k) (Fin k) ℝ} {p : ℝ} (hM : ∀ i j, M i j = p) (z : Fin N → Fin k) (loops : Bool) (x : Fin N → ℝ) :
    dirichlet (meanWeights M z loops) x = p * (N * ∑ v, x v ^ 2 - (∑ v, x v) ^ 2) := by
  have h1 : ∀ i j, meanWeights M z loops i j * (x i - x j) ^ 2 = p * (x i ^ 2 + x j ^ 2 - 2 * (x i * x j)) := by
    intro i j
    unfold meanWeights
    rw [Matrix.of_apply]
    by_cases h : i = j
    · subst h; ring_nf
    · rw [if_pos (.inl h), hM]; ring
  unfold dirichlet
  simp only [h1, Finset.sum_add_distrib, Finset.sum_sub_distrib, ← Finset.mul_sum, ← Finset.sum_mul, Finset.sum_const, Finset.card_univ, Fintype.card_fin, nsmul_eq_mul]
  ring

/-- **C141** `ErdosRenyi(N, p)`: up to the same probability, all the frequencies but the first are `p N` up to `t + s`. -/
theorem C141_erdosRenyi (hN : 2 ≤ N) {p : ℝ} (hp : 0 ≤ p ∧ p ≤ 1) (ht : nTry ≠ some 0)
    (hG : ∀ u, erdosRenyi N p false loops false u pop nTry lt = some (.ok (G u))) {t s : ℝ} (ht0 : 0 < t) (hs : 0 ≤ s) :
    draws.real {u | ∃ (S : Solvers N) (st : GState N) (e : Fin N → ℝ) (U : Matrix (Fin N) (Fin N) ℝ), Ready S (G u) st ∧ st.lapType = .combinatorial ∧
        st.basis = some ⟨N, e, U⟩ ∧ ∃ l : Fin N, 1 ≤ l.1 ∧ t + s < |e l - p * N|} ≤
      2 * N ^ 3 * (p * (1 - p)) / t ^ 4 + N * (2 * Real.exp (-(2 * s ^ 2) / N)) := by
  obtain ⟨M, z, hM, hS⟩ := er_sbm hG
  have hM1 : ∀ i j, 0 ≤ M i j ∧ M i j ≤ 1 := fun i j => by rw [hM]; exact hp
  have hN0 : 0 < N := by omega
  refine le_trans (measureReal_mono (fun u hu => ?_) (measure_ne_top _ _))
    (C141_all_signals hN0 hM1 (fun i j => by rw [hM, hM]) ht hS (mul_nonneg hp.1 (by linarith [hp.2])) (fun i j => by rw [hM]) ht0 hs)
  by_contra hno
  simp only [Set.mem_setOf_eq, not_exists, not_lt, one_energy hM] at hno
  obtain ⟨S, st, e, U, h, hl, hb, l, hl1, hlt⟩ := hu
  obtain ⟨hE, hm⟩ := h.pairs hb
  have hL : st.L = combLap (G u).W.dense := h.comb hl
  have quad : ∀ y : Fin N → ℝ, dirichlet (G u).W.dense (U *ᵥ y) = ∑ l, e l * y l ^ 2 := fun y => by
    rw [← combLap_quad, ← hL, Weyl.quad_basis hE]
  have norm : ∀ y : Fin N → ℝ, ∑ v, (U *ᵥ y) v ^ 2 = ∑ l, y l ^ 2 := fun y => by
    rw [← dot_sum_sq, Weyl.norm_basis hE]
  refine absurd hlt (not_lt.2 (abs_le.2 ⟨?_, ?_⟩))
  · set i0 : Fin N := ⟨0, h.pos⟩ with hi0
    set i1 : Fin N := ⟨1, hN⟩ with hi1
    have h01 : i0 ≠ i1 := by simp [hi0, hi1]
    obtain ⟨a, b, hab, hsum⟩ : ∃ a b : ℝ, 0 < a ^ 2 + b ^ 2 ∧ a * ∑ v, U v i0 + b * ∑ v, U v i1 = 0 := by
      by_cases hz : ∑ v, U v i1 = 0
      · exact ⟨0, 1, by norm_num, by rw [hz]; ring⟩
      · exact ⟨∑ v, U v i1, - ∑ v, U v i0, by positivity, by ring⟩
    set y : Fin N → ℝ := fun l => if l = i0 then a else if l = i1 then b else 0 with hy
    have y0 : y i0 = a := by simp [hy]
    have y1 : y i1 = b := by simp [hy, Ne.symm h01]
    have hx : ∀ φ : Fin N → ℝ, ∑ l, φ l * y l = φ i0 * a + φ i1 * b := fun φ => by
      rw [Finset.sum_eq_add i0 i1 h01 (fun c _ hc => by simp [hy, hc.1, hc.2]) (by simp) (by simp), y0, y1]
    have hx2 : ∀ φ : Fin N → ℝ, ∑ l, φ l * y l ^ 2 = φ i0 * a ^ 2 + φ i1 * b ^ 2 := fun φ => by
      rw [Finset.sum_eq_add i0 i1 h01 (fun c _ hc => by simp [hy, hc.1, hc.2]) (by simp) (by simp), y0, y1]
    have hs0 : ∑ v, (U *ᵥ y) v = 0 := by
      simp only [Matrix.mulVec, dotProduct, hx, Finset.sum_add_distrib, ← Finset.sum_mul]
      linarith
    have hnorm : ∑ v, (U *ᵥ y) v ^ 2 = a ^ 2 + b ^ 2 := by
      rw [norm]
      simpa using hx2 fun _ => 1
    have hq := (abs_le.1 (hno (U *ᵥ y))).1
    rw [hs0, quad, hx2, hnorm] at hq
    have he01 : e i0 ≤ e i1 := hm (Fin.mk_le_mk.2 (by omega))
    have he1l : e i1 ≤ e l := hm (Fin.mk_le_mk.2 hl1)
    have h3 : (p * N - (t + s)) * (a ^ 2 + b ^ 2) ≤ e l * (a ^ 2 + b ^ 2) := by nlinarith [sq_nonneg a, sq_nonneg b]
    have := le_of_mul_le_mul_right h3 hab
    linarith
  · have hsing : ∀ φ : Fin N → ℝ, ∑ j, φ j * (Pi.single l 1 : Fin N → ℝ) j ^ 2 = φ l := fun φ => by
      rw [Finset.sum_eq_single l (fun b _ hb => by simp [hb]) (by simp)]
      simp
    have hq := (abs_le.1 (hno (U *ᵥ Pi.single l 1))).2
    have n1 := norm (Pi.single l 1)
    have hs1 : ∑ j, (Pi.single l 1 : Fin N → ℝ) j ^ 2 = 1 := by simpa using hsing fun _ => 1
    rw [hs1] at n1
    rw [quad, hsing, n1] at hq
    nlinarith [mul_nonneg hp.1 (sq_nonneg (∑ v, (U *ᵥ Pi.single l 1) v))]

end

/-! ### Two communities of the same size -/

/-- `+ 1` on the vertices of the first of two communities, `- 1` on those of the second. -/
def Spec.side (z : Fin N → Fin 2) (v : Fin N) : ℝ := if z v = 0 then 1 else -1

namespace BlockNoise

theorem side_sq (z : Fin N → Fin 2) (v : Fin N) : side z v ^ 2 = 1 := by unfold side; split <;> norm_num

theorem sum_side_sq (z : Fin N → Fin 2) : ∑ v, side z v ^ 2 = N := by simp [side_sq]

/-- the energy on the mean weights of two communities -/
theorem two_energy {M : Matrix (Fin 2) (Fin 2) ℝ} {p q : ℝ} (h00 : M 0 0 = p) (h11 : M 1 1 = p) (h01 : M 0 1 = q) (h10 : M 1 0 = q) {z : Fin N → Fin 2} (loops : Bool)
    (hz : ∑ v, side z v = 0) (x : Fin N → ℝ) :
    dirichlet (meanWeights M z loops) x = (p + q) / 2 * (N * ∑ v, x v ^ 2 - (∑ v, x v) ^ 2) - (p - q) / 2 * (∑ v, side z v * x v) ^ 2 := by
  have h1 : ∀ i j, meanWeights M z loops i j * (x i - x j) ^ 2 = (p + q) / 2 * (x i - x j) ^ 2 + (p - q) / 2 * (side z i * side z j * (x i - x j) ^ 2) := by
    intro i j
    unfold meanWeights
    rw [Matrix.of_apply]
    by_cases h : i = j
    · subst h; simp
    rw [if_pos (.inl h)]
    have : M (z i) (z j) = (p + q) / 2 + (p - q) / 2 * (side z i * side z j) := by
      unfold side
      have two : ∀ a : Fin 2, a = 0 ∨ a = 1 := by decide
      rcases two (z i) with a | a <;> rcases two (z j) with b | b <;> simp [a, b, h00, h11, h01, h10] <;> ring
    rw [this]
    ring
  have h2 : ∑ i, ∑ j, (x i - x j) ^ 2 = 2 * (N * ∑ v, x v ^ 2 - (∑ v, x v) ^ 2) := by
    have : ∀ i j, (x i - x j) ^ 2 = x i ^ 2 + x j ^ 2 - 2 * (x i * x j) := fun i j => by ring
    simp only [this, Finset.sum_add_distrib, Finset.sum_sub_distrib, ← Finset.mul_sum, ← Finset.sum_mul, Finset.sum_const, Finset.card_univ, Fintype.card_fin, nsmul_eq_mul]
    ring
  have h3 : ∑ i, ∑ j, side z i * side z j * (x i - x j) ^ 2 = - 2 * (∑ v, side z v * x v) ^ 2 := by
    have : ∀ i j, side z i * side z j * (x i - x j) ^ 2 = side z i * x i ^ 2 * side z j + side z i * (side z j * x j ^ 2) - 2 * (side z i * x i * (side z j * x j)) := fun i j => by ring
    simp only [this, Finset.sum_add_distrib, Finset.sum_sub_distrib, ← Finset.mul_sum, ← Finset.sum_mul, hz]
    ring
  unfold dirichlet
  simp only [h1, Finset.sum_add_distrib, ← Finset.mul_sum, h2, h3]
  ring

/-- the second mode is aligned with the communities when all the energies are close to those on the mean weights -/
theorem aligned {S : Solvers N} {g : Graph N ℝ} {st : GState N} {e : Fin N → ℝ} {U : Matrix (Fin N) (Fin N) ℝ} (h : Ready S g st) (hl : st.lapType = .combinatorial)
    (hb : st.basis = some ⟨N, e, U⟩) (hN : 2 ≤ N) {M : Matrix (Fin 2) (Fin 2) ℝ} {p q : ℝ} (h00 : M 0 0 = p) (h11 : M 1 1 = p) (h01 : M 0 1 = q) (h10 : M 1 0 = q) (hpq : q < p)
    {z : Fin N → Fin 2} {loops : Bool} (hz : ∑ v, side z v = 0) {B : ℝ} (hBq : B < N * q)
    (hB : ∀ x, |dirichlet g.W.dense x - dirichlet (meanWeights M z loops) x| ≤ B * ∑ i, x i ^ 2) :
    (N - (∑ v, side z v * U v ⟨1, hN⟩) ^ 2) * (p - q) ≤ 4 * B := by
  obtain ⟨hE, hm⟩ := h.pairs hb
  have hN0 : (0 : ℝ) < N := by exact_mod_cast h.pos
  have cs : ∀ x : Fin N → ℝ, (∑ v, side z v * x v) ^ 2 ≤ N * ∑ v, x v ^ 2 := fun x => by
    have := Finset.sum_mul_sq_le_sq_mul_sq Finset.univ (side z) x
    rwa [sum_side_sq] at this
  have hL : st.L = combLap g.W.dense := h.comb hl
  have en := two_energy h00 h11 h01 h10 loops hz
  set i0 : Fin N := ⟨0, h.pos⟩ with hi0
  set i1 : Fin N := ⟨1, hN⟩ with hi1
  have h01' : i0 ≠ i1 := by simp [hi0, hi1]
  have quad : ∀ y : Fin N → ℝ, dirichlet g.W.dense (U *ᵥ y) = ∑ l, e l * y l ^ 2 := fun y => by
    rw [← combLap_quad, ← hL, Weyl.quad_basis hE]
  have norm : ∀ y : Fin N → ℝ, ∑ v, (U *ᵥ y) v ^ 2 = ∑ l, y l ^ 2 := fun y => by
    rw [← dot_sum_sq, Weyl.norm_basis hE]
  -- the second mode has mean zero
  have hmean : ∑ v, U v i1 = 0 := by
    by_contra hne
    set y : Fin N → ℝ := fun l => if l = i0 then ∑ v, U v i1 else if l = i1 then - ∑ v, U v i0 else 0 with hy
    have y0 : y i0 = ∑ v, U v i1 := by simp [hy]
    have y1 : y i1 = - ∑ v, U v i0 := by simp [hy, Ne.symm h01']
    have hx : ∀ φ : Fin N → ℝ, ∑ l, φ l * y l = φ i0 * y i0 + φ i1 * y i1 := fun φ => by
      rw [Finset.sum_eq_add i0 i1 h01' (fun c _ hc => by simp [hy, hc.1, hc.2]) (by simp) (by simp)]
    have hx2 : ∀ φ : Fin N → ℝ, ∑ l, φ l * y l ^ 2 = φ i0 * y i0 ^ 2 + φ i1 * y i1 ^ 2 := fun φ => by
      rw [Finset.sum_eq_add i0 i1 h01' (fun c _ hc => by simp [hy, hc.1, hc.2]) (by simp) (by simp)]
    have hs0 : ∑ v, (U *ᵥ y) v = 0 := by
      simp only [Matrix.mulVec, dotProduct, hx, Finset.sum_add_distrib, ← Finset.sum_mul, y0, y1]
      ring
    have hnorm : ∑ v, (U *ᵥ y) v ^ 2 = y i0 ^ 2 + y i1 ^ 2 := by
      rw [norm]
      simpa using hx2 fun _ => 1
    have hpos : 0 < y i0 ^ 2 + y i1 ^ 2 := by
      have : 0 < y i0 ^ 2 := by rw [y0]; positivity
      positivity
    have hq := hB (U *ᵥ y)
    rw [en, hs0, quad, hx2, hnorm] at hq
    have hc := cs (U *ᵥ y)
    rw [hnorm] at hc
    have hle := (abs_le.1 hq).1
    have hlow : (N * q - B) * (y i0 ^ 2 + y i1 ^ 2) ≤ e i0 * y i0 ^ 2 + e i1 * y i1 ^ 2 := by
      have : (p - q) / 2 * (∑ v, side z v * (U *ᵥ y) v) ^ 2 ≤ (p - q) / 2 * (N * (y i0 ^ 2 + y i1 ^ 2)) := mul_le_mul_of_nonneg_left hc (by linarith)
      nlinarith
    have he01 : e i0 ≤ e i1 := hm (Fin.mk_le_mk.2 (by omega))
    have hup : e i0 * y i0 ^ 2 + e i1 * y i1 ^ 2 ≤ e i1 * (y i0 ^ 2 + y i1 ^ 2) := by nlinarith [sq_nonneg (y i0)]
    have he1 : 0 < e i1 := by
      have : 0 < (N * q - B) * (y i0 ^ 2 + y i1 ^ 2) := mul_pos (by linarith) hpos
      exact pos_of_mul_pos_left (lt_of_lt_of_le this (hlow.trans hup)) hpos.le
    have hcol : ∀ v, (st.L *ᵥ fun w => U w i1) v = e i1 * U v i1 := fun v => by
      have := congrFun (congrFun hE.eig v) i1
      rw [Matrix.mul_diagonal, Matrix.mul_apply] at this
      simp only [Matrix.mulVec, dotProduct]
      rw [this]; ring
    have hsum := sum_combLap_mulVec g.W.dense fun w => U w i1
    rw [← hL] at hsum
    simp only [hcol, ← Finset.mul_sum] at hsum
    rcases mul_eq_zero.1 hsum with a | a
    · exact he1.ne' a
    · exact hne a
  -- its frequency from above
  have hone : st.L *ᵥ (fun _ => (1 : ℝ)) = 0 := by rw [hL]; exact combLap_const _ _
  have up := (gap_quad h hb hN (fun _ => 1) hone (fun hc => by simpa using congrFun hc i0) (side z) (by simpa using hz)).1
  rw [hL, combLap_quad, sum_side_sq] at up
  have hup := (abs_le.1 (hB (side z))).2
  rw [en, sum_side_sq, hz] at hup
  have hss : ∑ v, side z v * side z v = N := by simpa only [← sq] using sum_side_sq z
  rw [hss] at hup
  have he1 : e i1 ≤ N * q + B := by
    have : e i1 * N ≤ (N * q + B) * N := by
      change e ⟨1, hN⟩ * N ≤ _
      nlinarith
    exact le_of_mul_le_mul_right this hN0
  -- and from below
  have hcol : U *ᵥ Pi.single i1 1 = fun v => U v i1 := by simp [Matrix.mulVec_single]; rfl
  have n1 := norm (Pi.single i1 1)
  have q1 := quad (Pi.single i1 1)
  have hsing : ∀ φ : Fin N → ℝ, ∑ l, φ l * (Pi.single i1 1 : Fin N → ℝ) l ^ 2 = φ i1 := fun φ => by
    rw [Finset.sum_eq_single i1 (fun b _ hb => by simp [hb]) (by simp)]
    simp
  have hs1 : ∑ l, (Pi.single i1 1 : Fin N → ℝ) l ^ 2 = 1 := by simpa using hsing fun _ => 1
  rw [hcol] at n1 q1
  rw [hsing] at q1
  rw [hs1] at n1
  have hlow := (abs_le.1 (hB fun v => U v i1)).1
  rw [en, q1, n1, hmean] at hlow
  nlinarith

/-- a unit vector aligned with the sides has few wrong signs -/
theorem wrong_signs {z : Fin N → Fin 2} {f : Fin N → ℝ} (hf : ∑ v, f v ^ 2 = 1) (hc : 0 ≤ ∑ v, side z v * f v) :
    ((Finset.univ.filter fun v => f v * side z v ≤ 0).card : ℝ) ≤ N - (∑ v, side z v * f v) ^ 2 := by
  have h1 : ∑ v, side z v * f v ≤ ∑ v ∈ Finset.univ.filter (fun v => ¬ f v * side z v ≤ 0), side z v * f v := by
    rw [← Finset.sum_filter_add_sum_filter_not Finset.univ fun v => f v * side z v ≤ 0]
    have : ∑ v ∈ Finset.univ.filter (fun v => f v * side z v ≤ 0), side z v * f v ≤ 0 :=
      Finset.sum_nonpos fun v hv => by rw [mul_comm]; exact (Finset.mem_filter.1 hv).2
    linarith
  have h2 := Finset.sum_mul_sq_le_sq_mul_sq (Finset.univ.filter fun v => ¬ f v * side z v ≤ 0) (side z) f
  have h3 : ∑ v ∈ Finset.univ.filter (fun v => ¬ f v * side z v ≤ 0), side z v ^ 2 = N - ((Finset.univ.filter fun v => f v * side z v ≤ 0).card : ℝ) := by
    have := Finset.card_filter_add_card_filter_not (s := (Finset.univ : Finset (Fin N))) fun v => f v * side z v ≤ 0
    rw [Finset.card_univ, Fintype.card_fin] at this
    have h : (((Finset.univ.filter fun v => f v * side z v ≤ 0).card : ℝ) + ((Finset.univ.filter fun v => ¬ f v * side z v ≤ 0).card : ℝ)) = N := by exact_mod_cast this
    simp only [side_sq, Finset.sum_const, nsmul_eq_mul, mul_one]
    linarith
  have h4 : ∑ v ∈ Finset.univ.filter (fun v => ¬ f v * side z v ≤ 0), f v ^ 2 ≤ 1 := by
    rw [← hf]
    exact Finset.sum_le_sum_of_subset_of_nonneg (Finset.filter_subset _ _) fun _ _ _ => sq_nonneg _
  have h5 : 0 ≤ ∑ v ∈ Finset.univ.filter (fun v => ¬ f v * side z v ≤ 0), side z v ^ 2 := Finset.sum_nonneg fun _ _ => sq_nonneg _
  have h6 := pow_le_pow_left₀ hc h1 2
  have h7 := mul_le_mul_of_nonneg_left h4 h5
  linarith [h3]

end BlockNoise

section

variable {z : Fin N → Fin 2} {loops : Bool} {pop : ℕ → Pop N} {nTry : Option ℕ} {lt : LapType} {G : (ℕ → ℝ) → Graph N ℝ}

/-- **C141** The communities: for two communities of the same size, linked with probability `q` across and `p > q` inside, up to a small probability the signs of the second
column of `U` (or their opposites) give the community of all the vertices but `4 (t + s) / (p - q)`. -/
theorem C141_communities (hN : 0 < N) {M : Matrix (Fin 2) (Fin 2) ℝ} {p q : ℝ} (h00 : M 0 0 = p) (h11 : M 1 1 = p) (h01 : M 0 1 = q) (h10 : M 1 0 = q) (hq : 0 ≤ q) (hpq : q < p) (hp : p ≤ 1)
    (hz : ∑ v, side z v = 0) (ht : nTry ≠ some 0) (hG : ∀ u, sbm M z false loops u false pop nTry lt = some (.ok (G u)))
    {t s : ℝ} (ht0 : 0 < t) (hs : 0 ≤ s) (hts : t + s < N * q) :
    draws.real {u | ∃ (S : Solvers N) (st : GState N) (e : Fin N → ℝ) (U : Matrix (Fin N) (Fin N) ℝ), Ready S (G u) st ∧ st.lapType = .combinatorial ∧
        st.basis = some ⟨N, e, U⟩ ∧ ∀ l : Fin N, l.1 = 1 → ∀ sg : ℝ, sg = 1 ∨ sg = -1 →
          4 * (t + s) / (p - q) < ((Finset.univ.filter fun v => sg * U v l * side z v ≤ 0).card : ℝ)} ≤
      2 * N ^ 3 * (1 / 4) / t ^ 4 + N * (2 * Real.exp (-(2 * s ^ 2) / N)) := by
  have two : ∀ a : Fin 2, a = 0 ∨ a = 1 := by decide
  have hM : ∀ i j, 0 ≤ M i j ∧ M i j ≤ 1 := fun i j => by
    rcases two i with rfl | rfl <;> rcases two j with rfl | rfl <;> simp only [h00, h11, h01, h10] <;> constructor <;> linarith
  have hMs : ∀ i j, M i j = M j i := fun i j => by
    rcases two i with rfl | rfl <;> rcases two j with rfl | rfl <;> simp only [h00, h11, h01, h10]
  have hN2 : 2 ≤ N := by
    by_contra hlt
    obtain rfl : N = 1 := by omega
    have := side_sq z 0
    rw [Fin.sum_univ_one] at hz
    rw [hz] at this
    norm_num at this
  refine le_trans (measureReal_mono (fun u hu => ?_) (measure_ne_top _ _))
    (C141_all_signals hN hM hMs ht hG (by norm_num) (fun i j => by nlinarith [sq_nonneg (M i j - 1 / 2)]) ht0 hs)
  by_contra hno
  simp only [Set.mem_setOf_eq, not_exists, not_lt] at hno
  obtain ⟨S, st, e, U, h, hl, hb, hbad⟩ := hu
  have hal := aligned h hl hb hN2 h00 h11 h01 h10 hpq hz hts hno
  have hcol : ∑ v, U v ⟨1, hN2⟩ ^ 2 = 1 := by
    have := congrFun (congrFun (h.pairs hb).1.orthonormal ⟨1, hN2⟩) ⟨1, hN2⟩
    rw [Matrix.mul_apply, Matrix.one_apply_eq] at this
    simpa only [Matrix.transpose_apply, ← sq] using this
  have hd : 0 < p - q := by linarith
  have fin : ∀ sg : ℝ, (sg = 1 ∨ sg = -1) → ¬ 0 ≤ ∑ v, side z v * (sg * U v ⟨1, hN2⟩) := fun sg hsg hc => by
    have hsq : sg ^ 2 = 1 := by rcases hsg with rfl | rfl <;> norm_num
    have hf : ∑ v, (sg * U v ⟨1, hN2⟩) ^ 2 = 1 := by simp only [mul_pow, hsq, one_mul, hcol]
    have hw := wrong_signs hf hc
    have hb := hbad ⟨1, hN2⟩ rfl sg hsg
    have he : (∑ v, side z v * (sg * U v ⟨1, hN2⟩)) ^ 2 = (∑ v, side z v * U v ⟨1, hN2⟩) ^ 2 := by
      have : ∀ v, side z v * (sg * U v ⟨1, hN2⟩) = sg * (side z v * U v ⟨1, hN2⟩) := fun v => by ring
      simp only [this, ← Finset.mul_sum]
      rw [mul_pow, hsq, one_mul]
    rw [he] at hw
    rw [← le_div_iff₀ hd] at hal
    linarith
  have a := fin 1 (.inl rfl)
  have b := fin (-1) (.inr rfl)
  simp only [one_mul, neg_mul, mul_neg, Finset.sum_neg_distrib] at a b
  rcases le_total 0 (∑ v, side z v * U v ⟨1, hN2⟩) with q | q
  · exact a q
  · exact b (by linarith)

end

/-- **C141** In the limit of large graphs: the fraction of the vertices whose community is not given by the sign of the second column of `U` tends to zero in probability, uniformly over the
graphs of at least so many vertices. -/
theorem C141_limit {M : Matrix (Fin 2) (Fin 2) ℝ} {p q : ℝ} (h00 : M 0 0 = p) (h11 : M 1 1 = p) (h01 : M 0 1 = q) (h10 : M 1 0 = q) (hq : 0 < q) (hpq : q < p) (hp : p ≤ 1)
    {eps delta : ℝ} (heps : 0 < eps) (hdelta : 0 < delta) :
    ∃ N0 : ℕ, ∀ N, N0 ≤ N → ∀ (z : Fin N → Fin 2) (loops : Bool) (pop : ℕ → Pop N) (nTry : Option ℕ) (lt : LapType) (G : (ℕ → ℝ) → Graph N ℝ),
      ∑ v, side z v = 0 → nTry ≠ some 0 → (∀ u, sbm M z false loops u false pop nTry lt = some (.ok (G u))) →
      draws.real {u | ∃ (S : Solvers N) (st : GState N) (e : Fin N → ℝ) (U : Matrix (Fin N) (Fin N) ℝ), Ready S (G u) st ∧ st.lapType = .combinatorial ∧
        st.basis = some ⟨N, e, U⟩ ∧ ∀ l : Fin N, l.1 = 1 → ∀ sg : ℝ, sg = 1 ∨ sg = -1 →
          eps * N < ((Finset.univ.filter fun v => sg * U v l * side z v ≤ 0).card : ℝ)} ≤ delta := by
  obtain ⟨τ, hτ⟩ : ∃ τ, τ = min (eps * (p - q) / 8) (q / 4) := ⟨_, rfl⟩
  have hd : 0 < p - q := by linarith
  have hτ0 : 0 < τ := by rw [hτ]; exact lt_min (by positivity) (by positivity)
  have hτ1 : τ ≤ eps * (p - q) / 8 := by rw [hτ]; exact min_le_left _ _
  have hτ2 : τ ≤ q / 4 := by rw [hτ]; exact min_le_right _ _
  have lim1 : Filter.Tendsto (fun N : ℕ => 1 / 2 / τ ^ 4 * (N : ℝ)⁻¹) Filter.atTop (nhds 0) := by
    simpa using (tendsto_inv_atTop_nhds_zero_nat (𝕜 := ℝ)).const_mul (1 / 2 / τ ^ 4)
  have lim2 : Filter.Tendsto (fun N : ℕ => 2 * ((N : ℝ) * Real.exp (-(2 * τ ^ 2) * N))) Filter.atTop (nhds 0) := by
    have h := (Real.tendsto_pow_mul_exp_neg_atTop_nhds_zero 1).comp
      ((tendsto_natCast_atTop_atTop (R := ℝ)).const_mul_atTop (show (0 : ℝ) < 2 * τ ^ 2 by positivity))
    have h2 := h.const_mul (2 / (2 * τ ^ 2))
    rw [mul_zero] at h2
    refine h2.congr fun N => ?_
    simp only [Function.comp, pow_one]
    rw [neg_mul]
    field_simp
  have lim := lim1.add lim2
  rw [add_zero] at lim
  obtain ⟨N1, hN1⟩ := Filter.eventually_atTop.1 (lim.eventually (gt_mem_nhds hdelta))
  refine ⟨max N1 1, fun N hN z loops pop nTry lt G hz ht hG => ?_⟩
  have hNpos : 0 < N := lt_of_lt_of_le Nat.one_pos ((le_max_right _ _).trans hN)
  have hN0 : (0 : ℝ) < N := by exact_mod_cast hNpos
  have key := C141_communities hNpos h00 h11 h01 h10 hq.le hpq hp hz ht hG (t := τ * N) (s := τ * N) (by positivity) (by positivity) (by nlinarith)
  refine le_trans (measureReal_mono (fun u hu => ?_) (measure_ne_top _ _)) (key.trans (le_trans (le_of_eq ?_) (hN1 N ((le_max_left _ _).trans hN)).le))
  · obtain ⟨S, st, e, U, h, hl, hb, hbad⟩ := hu
    refine ⟨S, st, e, U, h, hl, hb, fun l hl1 sg hsg => lt_of_le_of_lt ?_ (hbad l hl1 sg hsg)⟩
    rw [div_le_iff₀ hd]
    nlinarith
  · have : -(2 * (τ * N) ^ 2) / (N : ℝ) = -(2 * τ ^ 2) * N := by field_simp
    rw [this]
    field_simp
    ring

/-- The hypotheses hold together: four vertices in two communities, and the states of the samples with a basis. -/
example (pop : ℕ → Pop 4) : ∃ (M : Matrix (Fin 2) (Fin 2) ℝ) (G : (ℕ → ℝ) → Graph 4 ℝ), M 0 0 = 1 / 2 ∧ M 1 1 = 1 / 2 ∧ M 0 1 = 1 / 4 ∧ M 1 0 = 1 / 4 ∧
    (∑ v, side (![0, 0, 1, 1] : Fin 4 → Fin 2) v = 0) ∧ (∀ u, sbm M ![0, 0, 1, 1] false false u false pop (some 3) .combinatorial = some (.ok (G u))) ∧
    ∀ u, ∃ (S : Solvers 4) (st : GState 4) (e : Fin 4 → ℝ) (U : Matrix (Fin 4) (Fin 4) ℝ), Ready S (G u) st ∧ st.lapType = .combinatorial ∧ st.basis = some ⟨4, e, U⟩ := by
  have hM : ∀ i j, 0 ≤ (!![1 / 2, 1 / 4; 1 / 4, 1 / 2] : Matrix (Fin 2) (Fin 2) ℝ) i j ∧ (!![1 / 2, 1 / 4; 1 / 4, 1 / 2] : Matrix (Fin 2) (Fin 2) ℝ) i j ≤ 1 := by
    intro i j
    fin_cases i <;> fin_cases j <;> norm_num
  have := fun u => plain (M := !![1 / 2, 1 / 4; 1 / 4, 1 / 2]) (z := ![0, 0, 1, 1]) (directed := false) (loops := false) hM (lt := .combinatorial) (.inl rfl) pop (nTry := some 3) (by simp) u
  choose G hG _ using this
  refine ⟨_, G, by norm_num, by norm_num, by norm_num, by norm_num, by simp [side, Fin.sum_univ_four], hG, fun u => ?_⟩
  have hd := dense_eq (by norm_num) hM (by simp) hG u
  obtain ⟨-, a, ha, -⟩ := sbm_ok _ _ false false u (by norm_num) (hG u)
  obtain ⟨g, g1, g2, g3, g4⟩ := Graph.ofCsr_canonical _ (Sp.canonical_ofDense (sampleW !![1 / 2, 1 / 4; 1 / 4, 1 / 2] ![0, 0, 1, 1] false false u (a * sampleCalls 4 false false))) (lt := .combinatorial) (.inl rfl)
  obtain rfl : g = G u := Except.ok.inj (g1.symm.trans ha)
  have hnn : NonnegW (G u).W.dense := by
    classical
    intro i j
    rw [hd]
    simp only [matOf, Matrix.of_apply]
    split_ifs <;> norm_num
  obtain ⟨S, s, hr, hl, -⟩ := ready_ofGraph g2 hnn (by norm_num) g4
  obtain ⟨e, U, -, h2, h3, -, h5, -⟩ := C113_computed hr
  exact ⟨S, _, e, U, h2, by rw [h5, hl], h3⟩

end PyGSP
