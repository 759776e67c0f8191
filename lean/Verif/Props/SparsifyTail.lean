import Verif.Props.Sparsify
import Verif.Props.ResistanceId
import Verif.Lemmas.Chernoff
import Verif.Lemmas.Weyl
import Verif.Lemmas.Learning
import Verif.Lemmas.Solvers

/-!
# C119: how well a sparsified graph approximates the graph
-/

namespace PyGSP

open Matrix Spec GState Reduction

variable {n : ℕ}

open Classical in
/-- The random experiment of one attempt of `graph_sparsify` on a graph with the weights `M`: `q` independent draws of one of the
`m` edges, the edge `k` joins the vertices `e k` and is drawn with the probability `p k` = weight times effective resistance over
`N - 1`; `W' d` are the weights of the graph that is returned when the draws are `d`: an edge drawn `c` times has `c / (q p)`
times its weight. -/
structure Spec.Sampled {q m : ℕ} (M : Matrix (Fin n) (Fin n) ℝ) (e : Fin m → Fin n × Fin n) (p : Fin m → ℝ)
    (W' : (Fin q → Fin m) → Matrix (Fin n) (Fin n) ℝ) : Prop where
  draws : 0 < q
  inj : Function.Injective e
  edges : ∀ i j, (∃ k, e k = (i, j)) ↔ j < i ∧ M i j ≠ 0
  prob : ∀ k r, IsResistance M (e k).1 (e k).2 r → p k = M (e k).1 (e k).2 * r / (n - 1)
  pos : ∀ k, 0 < p k
  total : ∑ k, p k = 1
  symm : ∀ d i j, W' d i j = W' d j i
  rest : ∀ d i j, M i j = 0 → W' d i j = 0
  weight : ∀ d k, W' d (e k).1 (e k).2 = (Finset.univ.filter fun t => d t = k).card * M (e k).1 (e k).2 / (q * p k)

namespace Reduction

variable {pinv : Matrix (Fin n) (Fin n) ℝ → Matrix (Fin n) (Fin n) ℝ} {draws : ℕ → ℕ → List ℕ}

/-- the square of the difference of a signal at two vertices is at most the resistance times the energy -/
theorem diff_sq_le {M : Matrix (Fin n) (Fin n) ℝ} (hM : NonnegW M) {i j : Fin n} {r : ℝ} (hr : IsResistance M i j r) (x : Fin n → ℝ) :
    (x i - x j) ^ 2 ≤ r * dirichlet M x := by
  obtain ⟨⟨v, hv⟩, hu⟩ := hr
  have hL : combLap M *ᵥ v = Pi.single i 1 - Pi.single j 1 := by
    funext a; rw [combLap_mulVec, hv a]; simp [Pi.single_apply]
  have h1 : x ⬝ᵥ (combLap M *ᵥ v) = x i - x j := by rw [hL, dotProduct_sub]; simp
  have h2 : v ⬝ᵥ (combLap M *ᵥ v) = r := by rw [hL, dotProduct_sub, ← hu v hv]; simp
  have h3 : v ⬝ᵥ (combLap M *ᵥ x) = x i - x j := by
    rw [← h1, Matrix.dotProduct_mulVec, ← Matrix.mulVec_transpose, combLap_isSymm, dotProduct_comm]
  have h4 : ∀ t : ℝ, 0 ≤ r * (t * t) + (-(2 * (x i - x j))) * t + dirichlet M x := by
    intro t
    have := Learning.combLap_psd hM (x - t • v)
    rw [Matrix.mulVec_sub, Matrix.mulVec_smul, dotProduct_sub, sub_dotProduct, sub_dotProduct, smul_dotProduct, smul_dotProduct,
      dotProduct_smul, dotProduct_smul, h1, h2, h3, combLap_quad] at this
    simp only [smul_eq_mul] at this
    linarith
  have := discrim_le_zero h4
  unfold discrim at this
  nlinarith

open Classical in
/-- the energy as a sum over the edges -/
theorem dirichlet_edges {m : ℕ} {M A : Matrix (Fin n) (Fin n) ℝ} {e : Fin m → Fin n × Fin n} (hi : Function.Injective e)
    (he : ∀ i j, (∃ k, e k = (i, j)) ↔ j < i ∧ M i j ≠ 0) (hA : ∀ i j, A i j = A j i) (h0 : ∀ i j, M i j = 0 → A i j = 0) (x : Fin n → ℝ) :
    dirichlet A x = ∑ k, A (e k).1 (e k).2 * (x (e k).1 - x (e k).2) ^ 2 := by
  set f : Fin n × Fin n → ℝ := fun a => A a.1 a.2 * (x a.1 - x a.2) ^ 2 with hf
  have h1 : ∑ k, f (e k) = ∑ a : Fin n × Fin n, if a.2 < a.1 then f a else 0 := by
    rw [← Finset.sum_image (f := f) (s := Finset.univ) (g := e) (fun a _ b _ h => hi h), ← Finset.sum_filter]
    refine Finset.sum_subset ?_ ?_
    · intro a ha
      obtain ⟨k, -, rfl⟩ := Finset.mem_image.1 ha
      exact Finset.mem_filter.2 ⟨Finset.mem_univ _, ((he _ _).1 ⟨k, rfl⟩).1⟩
    · intro a ha hn
      have : M a.1 a.2 = 0 := by
        by_contra hc
        obtain ⟨k, hk⟩ := (he a.1 a.2).2 ⟨(Finset.mem_filter.1 ha).2, hc⟩
        exact hn (Finset.mem_image.2 ⟨k, Finset.mem_univ _, hk⟩)
      simp only [hf, h0 _ _ this, zero_mul]
  have h2 : ∑ a : Fin n × Fin n, f a = 2 * ∑ a : Fin n × Fin n, if a.2 < a.1 then f a else 0 := by
    have hsw : ∑ a : Fin n × Fin n, (if a.1 < a.2 then f a else 0) = ∑ a : Fin n × Fin n, if a.2 < a.1 then f a else 0 := by
      rw [← Equiv.sum_comp (Equiv.prodComm (Fin n) (Fin n))]
      refine Finset.sum_congr rfl fun a _ => ?_
      simp only [Equiv.prodComm_apply, Prod.fst_swap, Prod.snd_swap, hf]
      rw [hA a.2 a.1]
      split
      · ring
      · rfl
    have hsp : ∀ a : Fin n × Fin n, f a = (if a.2 < a.1 then f a else 0) + if a.1 < a.2 then f a else 0 := by
      intro a
      rcases lt_trichotomy a.1 a.2 with h | h | h
      · rw [if_neg h.asymm, if_pos h, zero_add]
      · rw [if_neg h.not_gt, if_neg h.not_lt]; simp [hf, h]
      · rw [if_pos h, if_neg h.asymm, add_zero]
    rw [Finset.sum_congr rfl fun a _ => hsp a, Finset.sum_add_distrib, hsw]; ring
  unfold dirichlet
  rw [← Finset.sum_product', Finset.univ_product_univ]
  change 1 / 2 * ∑ a, f a = ∑ k, f (e k)
  rw [h2, h1]; ring

end Reduction

namespace Sampled

variable {q m : ℕ} {M : Matrix (Fin n) (Fin n) ℝ} {e : Fin m → Fin n × Fin n} {p : Fin m → ℝ} {W' : (Fin q → Fin m) → Matrix (Fin n) (Fin n) ℝ}

theorem card_eq (d : Fin q → Fin m) (k : Fin m) [DecidableEq (Fin m)] : ((Finset.univ.filter fun t => d t = k).card : ℝ) = ∑ t, if d t = k then (1 : ℝ) else 0 := by
  rw [Finset.card_filter]; push_cast; rfl

/-- what one draw contributes to the energy -/
noncomputable def Z (M : Matrix (Fin n) (Fin n) ℝ) (e : Fin m → Fin n × Fin n) (p : Fin m → ℝ) (x : Fin n → ℝ) (k : Fin m) : ℝ :=
  M (e k).1 (e k).2 / p k * (x (e k).1 - x (e k).2) ^ 2

theorem energy (h : Spec.Sampled M e p W') (d : Fin q → Fin m) (x : Fin n → ℝ) : dirichlet (W' d) x = (∑ t, Z M e p x (d t)) / q := by
  classical
  rw [dirichlet_edges h.inj h.edges (h.symm d) (h.rest d)]
  have hq : (q : ℝ) ≠ 0 := by exact_mod_cast h.draws.ne'
  have h1 : ∀ k, W' d (e k).1 (e k).2 * (x (e k).1 - x (e k).2) ^ 2 = (∑ t, if d t = k then Z M e p x k else 0) / q := by
    intro k
    have hp := (h.pos k).ne'
    have h2 : ∑ t, (if d t = k then Z M e p x k else 0) = (∑ t, if d t = k then (1 : ℝ) else 0) * Z M e p x k := by
      rw [Finset.sum_mul]; exact Finset.sum_congr rfl fun t _ => by split <;> simp
    rw [h.weight, h2, ← card_eq]
    unfold Z
    field_simp
  rw [Finset.sum_congr rfl fun k _ => h1 k, ← Finset.sum_div, Finset.sum_comm]
  congr 1
  exact Finset.sum_congr rfl fun t _ => by simp

theorem mean (h : Spec.Sampled M e p W') (hW : Sparsifiable M) (x : Fin n → ℝ) : ∑ k, p k * Z M e p x k = dirichlet M x := by
  rw [dirichlet_edges h.inj h.edges hW.undirected (fun _ _ h => h)]
  refine Finset.sum_congr rfl fun k _ => ?_
  have hp := (h.pos k).ne'
  unfold Z
  field_simp

theorem two_le (h : Spec.Sampled M e p W') : 2 ≤ n := by
  have hm : 0 < m := by
    rcases Nat.eq_zero_or_pos m with h0 | h0
    · subst h0; have := h.total; simp at this
    · exact h0
  have := ((h.edges _ _).1 ⟨⟨0, hm⟩, rfl⟩).1
  have := (e ⟨0, hm⟩).1.2
  omega

theorem bound (h : Spec.Sampled M e p W') (hW : Sparsifiable M) (hcon : Connected M) (x : Fin n → ℝ) (k : Fin m) :
    0 ≤ Z M e p x k ∧ Z M e p x k ≤ (n - 1) * dirichlet M x := by
  obtain ⟨pinv, hp⟩ := exists_pinv n
  have hres := resistance_spec (pinv := pinv) hW.nonneg hcon (hp _ (combLap_isSymm M)) (e k).1 (e k).2
  have hM := hW.nonneg (e k).1 (e k).2
  have hpk := h.pos k
  have hprob := h.prob k _ hres
  have hd := diff_sq_le hW.nonneg hres x
  set r := resistanceOfMatrix pinv (combLap M) (e k).1 (e k).2
  have hn1 : (0 : ℝ) < n - 1 := by
    have : (2 : ℝ) ≤ n := by exact_mod_cast two_le h
    linarith
  refine ⟨by unfold Z; positivity, ?_⟩
  unfold Z
  have h1 : M (e k).1 (e k).2 / p k * (x (e k).1 - x (e k).2) ^ 2 ≤ M (e k).1 (e k).2 / p k * (r * dirichlet M x) :=
    mul_le_mul_of_nonneg_left hd (by positivity)
  refine h1.trans (le_of_eq ?_)
  have h2 : (n - 1) * p k = M (e k).1 (e k).2 * r := by rw [hprob]; field_simp
  rw [div_mul_eq_mul_div, div_eq_iff hpk.ne']
  linear_combination (-dirichlet M x) * h2

open Classical in
/-- one signal -/
theorem one_signal (h : Spec.Sampled M e p W') (hW : Sparsifiable M) (hcon : Connected M) (x : Fin n → ℝ) {δ : ℝ} (h0 : 0 < δ) (h2 : δ ≤ 2) :
    ∑ d with δ * dirichlet M x < |dirichlet (W' d) x - dirichlet M x|, ∏ t, p (d t) ≤ 2 * Real.exp (-(q * δ ^ 2 / (4 * (n - 1)))) := by
  have hn1 : (0 : ℝ) < n - 1 := by
    have : (2 : ℝ) ≤ n := by exact_mod_cast two_le h
    linarith
  have hE : 0 ≤ dirichlet M x := by
    have := Learning.combLap_psd hW.nonneg x
    rwa [combLap_quad] at this
  rcases hE.eq_or_lt with h1 | h1
  · rw [Finset.sum_eq_zero]
    · positivity
    · intro d hd
      exfalso
      have hd := (Finset.mem_filter.1 hd).2
      rw [energy h, ← h1] at hd
      have hz : ∀ k, Z M e p x k = 0 := fun k => le_antisymm (by have := (bound h hW hcon x k).2; rwa [← h1, mul_zero] at this) (bound h hW hcon x k).1
      simp [hz] at hd
  · have := Draws.chernoff (q := q) (p := p) (fun k => (h.pos k).le) h.total (Z := Z M e p x) (B := (n - 1) * dirichlet M x) (by positivity)
      (bound h hW hcon x) h.draws h0.le h2
    rw [mean h hW] at this
    simp only [← energy h] at this
    refine this.trans (le_of_eq ?_)
    congr 3
    field_simp

theorem eig_nonneg {M : Matrix (Fin n) (Fin n) ℝ} {a : Fin n → ℝ} {U : Matrix (Fin n) (Fin n) ℝ} (hW : NonnegW M) (hE : IsEigenPairs (combLap M) a U) (j : Fin n) : 0 ≤ a j := by
  have h1 := Weyl.quad_basis hE (Pi.single j 1)
  have h2 := Learning.combLap_psd hW (U *ᵥ Pi.single j 1)
  rw [h1] at h2
  simpa [Pi.single_apply, ite_pow] using h2

theorem col_const {M : Matrix (Fin n) (Fin n) ℝ} {a : Fin n → ℝ} {U : Matrix (Fin n) (Fin n) ℝ} (hW : NonnegW M) (hcon : Connected M)
    (hE : IsEigenPairs (combLap M) a U) {j : Fin n} (hj : a j = 0) (v w : Fin n) : U v j = U w j := by
  refine combLap_ker (v := fun i => U i j) hW hcon ?_ v w
  funext i
  have := congrFun (congrFun hE.eig i) j
  rw [Matrix.mul_apply, Matrix.mul_diagonal, hj, mul_zero] at this
  exact this

/-- the resistance in terms of the eigenvectors -/
theorem resistance_sum {M : Matrix (Fin n) (Fin n) ℝ} {a : Fin n → ℝ} {U : Matrix (Fin n) (Fin n) ℝ} (hW : NonnegW M) (hcon : Connected M)
    (hE : IsEigenPairs (combLap M) a U) {v w : Fin n} {r : ℝ} (hr : IsResistance M v w r) : ∑ j, (U v j - U w j) ^ 2 / a j = r := by
  have hUU : U * Uᵀ = 1 := mul_eq_one_comm.1 hE.orthonormal
  have h1 : combLap M *ᵥ (U *ᵥ fun j => (U v j - U w j) / a j) = Pi.single v 1 - Pi.single w 1 := by
    rw [Matrix.mulVec_mulVec, hE.eig, ← Matrix.mulVec_mulVec]
    have : (diagonal a *ᵥ fun j => (U v j - U w j) / a j) = Uᵀ *ᵥ (Pi.single v 1 - Pi.single w 1) := by
      funext j
      rw [Matrix.mulVec_diagonal, Matrix.mulVec_sub]
      simp only [Matrix.mulVec_single_one, Pi.sub_apply, Matrix.col_apply, Matrix.transpose_apply]
      by_cases hj : a j = 0
      · rw [hj, zero_mul, col_const hW hcon hE hj v w, sub_self]
      · field_simp
    rw [this, Matrix.mulVec_mulVec, hUU, Matrix.one_mulVec]
  have := hr.2 (U *ᵥ fun j => (U v j - U w j) / a j) (fun x => by
    rw [← combLap_mulVec, h1]; simp [Pi.single_apply])
  rw [← this]
  simp only [Matrix.mulVec, dotProduct, ← Finset.sum_sub_distrib]
  exact Finset.sum_congr rfl fun j _ => by ring

theorem exists_zero {M : Matrix (Fin n) (Fin n) ℝ} {a : Fin n → ℝ} {U : Matrix (Fin n) (Fin n) ℝ} (hn : 0 < n) (hE : IsEigenPairs (combLap M) a U) : ∃ j, a j = 0 := by
  have hUU : U * Uᵀ = 1 := mul_eq_one_comm.1 hE.orthonormal
  by_contra hc
  push Not at hc
  have h1 : combLap M = U * diagonal a * Uᵀ := by rw [← hE.eig, Matrix.mul_assoc, hUU, Matrix.mul_one]
  have h2 := det_combLap hn M
  have h3 := congrArg Matrix.det hUU
  rw [Matrix.det_mul, Matrix.det_one] at h3
  rw [h1, Matrix.det_mul, Matrix.det_mul, Matrix.det_diagonal] at h2
  have h4 : U.det ≠ 0 := left_ne_zero_of_mul (h3 ▸ one_ne_zero)
  have h5 : Uᵀ.det ≠ 0 := right_ne_zero_of_mul (h3 ▸ one_ne_zero)
  exact mul_ne_zero (mul_ne_zero h4 (Finset.prod_ne_zero_iff.2 fun j _ => hc j)) h5 h2

open Classical in
/-- all the signals at once -/
theorem all_signals (h : Spec.Sampled M e p W') (hW : Sparsifiable M) (hcon : Connected M) {δ : ℝ} (h0 : 0 < δ) :
    ∑ d with ∃ x, δ * dirichlet M x < |dirichlet (W' d) x - dirichlet M x|, ∏ t, p (d t) ≤ (n - 1) * (n - 2) / (q * δ ^ 2) := by
  obtain ⟨a, U, hE, -⟩ := exists_eigh (combLap M) (fun i j => congrFun (congrFun (combLap_isSymm M) j) i)
  have hn2 := two_le h
  have hn1 : (0 : ℝ) < n - 1 := by
    have : (2 : ℝ) ≤ n := by exact_mod_cast hn2
    linarith
  have hq : (0 : ℝ) < q := by exact_mod_cast h.draws
  have ha : ∀ j, 0 ≤ a j := eig_nonneg hW.nonneg hE
  have hUU : U * Uᵀ = 1 := mul_eq_one_comm.1 hE.orthonormal
  obtain ⟨pinv, hpinv⟩ := exists_pinv n
  have hres : ∀ k, IsResistance M (e k).1 (e k).2 _ := fun k => resistance_spec (pinv := pinv) hW.nonneg hcon (hpinv _ (combLap_isSymm M)) (e k).1 (e k).2
  set r : Fin m → ℝ := fun k => resistanceOfMatrix pinv (combLap M) (e k).1 (e k).2 with hr
  have hpr : ∀ k, M (e k).1 (e k).2 / p k * r k = n - 1 := by
    intro k
    have h1 := h.prob k _ (hres k)
    have h2 := (h.pos k).ne'
    rw [div_mul_eq_mul_div, div_eq_iff h2, h1]
    field_simp
    rfl
  -- coordinates in which the energy is the square of the length
  set v : Fin m → Fin n → ℝ := fun k j => (U (e k).1 j - U (e k).2 j) / Real.sqrt (a j) with hv
  set c : (Fin n → ℝ) → Fin n → ℝ := fun x j => Real.sqrt (a j) * (Uᵀ *ᵥ x) j with hc
  have hvr : ∀ k, ∑ j, v k j ^ 2 = r k := by
    intro k
    refine Eq.trans ?_ (resistance_sum hW.nonneg hcon hE (hres k))
    refine Finset.sum_congr rfl fun j _ => ?_
    simp only [hv]
    rw [div_pow, Real.sq_sqrt (ha j)]
  have hcx : ∀ x, ∑ j, c x j ^ 2 = dirichlet M x := by
    intro x
    have h1 := Weyl.quad_basis hE (Uᵀ *ᵥ x)
    rw [Matrix.mulVec_mulVec, hUU, Matrix.one_mulVec, combLap_quad] at h1
    rw [h1]
    refine Finset.sum_congr rfl fun j _ => ?_
    simp only [hc]
    rw [mul_pow, Real.sq_sqrt (ha j)]
  have hdiff : ∀ x k, x (e k).1 - x (e k).2 = ∑ j, v k j * c x j := by
    intro x k
    have h1 : ∀ i, x i = ∑ j, U i j * (Uᵀ *ᵥ x) j := by
      intro i
      have : x = U *ᵥ (Uᵀ *ᵥ x) := by rw [Matrix.mulVec_mulVec, hUU, Matrix.one_mulVec]
      exact congrFun this i
    rw [h1 (e k).1, h1 (e k).2, ← Finset.sum_sub_distrib]
    refine Finset.sum_congr rfl fun j _ => ?_
    simp only [hv, hc]
    by_cases hj : a j = 0
    · rw [col_const hW.nonneg hcon hE hj (e k).1 (e k).2]; simp
    · have : Real.sqrt (a j) ≠ 0 := fun h => hj ((Real.sqrt_eq_zero (ha j)).1 h)
      field_simp
  -- the entries of the matrix of the energy in these coordinates
  set f : Fin n → Fin n → Fin m → ℝ := fun i j k => M (e k).1 (e k).2 / p k * (v k i * v k j) with hf
  set P : Fin n → Fin n → ℝ := fun i j => ∑ k, p k * f i j k with hP
  have hZ : ∀ x k, Z M e p x k = ∑ i, ∑ j, c x i * c x j * f i j k := by
    intro x k
    unfold Z
    rw [hdiff, sq, Finset.sum_mul_sum, Finset.mul_sum]
    refine Finset.sum_congr rfl fun i _ => ?_
    rw [Finset.mul_sum]
    exact Finset.sum_congr rfl fun j _ => by simp only [hf]; ring
  have hquad : ∀ d x, dirichlet (W' d) x - dirichlet M x = ∑ i, ∑ j, c x i * c x j * ((∑ t, f i j (d t)) / q - P i j) := by
    intro d x
    have e1 : ∑ t, Z M e p x (d t) = ∑ i, ∑ j, c x i * c x j * ∑ t, f i j (d t) := by
      simp only [hZ]
      rw [Finset.sum_comm]
      refine Finset.sum_congr rfl fun i _ => ?_
      rw [Finset.sum_comm]
      exact Finset.sum_congr rfl fun j _ => by rw [Finset.mul_sum]
    have e2 : dirichlet M x = ∑ i, ∑ j, c x i * c x j * P i j := by
      rw [← mean h hW x]
      simp only [hZ, hP, Finset.mul_sum]
      rw [Finset.sum_comm]
      refine Finset.sum_congr rfl fun i _ => ?_
      rw [Finset.sum_comm]
      exact Finset.sum_congr rfl fun j _ => Finset.sum_congr rfl fun k _ => by ring
    rw [energy h, e1, e2, Finset.sum_div, ← Finset.sum_sub_distrib]
    refine Finset.sum_congr rfl fun i _ => ?_
    rw [Finset.sum_div, ← Finset.sum_sub_distrib]
    exact Finset.sum_congr rfl fun j _ => by ring
  set F : (Fin q → Fin m) → ℝ := fun d => ∑ i, ∑ j, ((∑ t, f i j (d t)) / q - P i j) ^ 2 with hF
  have hcs : ∀ d x, (dirichlet (W' d) x - dirichlet M x) ^ 2 ≤ dirichlet M x ^ 2 * F d := by
    intro d x
    rw [hquad, ← hcx]
    have h1 := Finset.sum_mul_sq_le_sq_mul_sq (Finset.univ : Finset (Fin n × Fin n)) (fun i => c x i.1 * c x i.2) (fun i => (∑ t, f i.1 i.2 (d t)) / q - P i.1 i.2)
    rw [← Finset.univ_product_univ, Finset.sum_product, Finset.sum_product, Finset.sum_product] at h1
    refine h1.trans (le_of_eq ?_)
    simp only [hF]
    congr 1
    rw [sq, Finset.sum_mul_sum]
    exact Finset.sum_congr rfl fun i _ => Finset.sum_congr rfl fun j _ => by ring
  -- the mean of `F`
  have hsq : ∀ k, ∑ i, ∑ j, f i j k ^ 2 = (n - 1) ^ 2 := by
    intro k
    have h1 : ∀ i j, f i j k ^ 2 = (M (e k).1 (e k).2 / p k) ^ 2 * (v k i ^ 2 * v k j ^ 2) := fun i j => by simp only [hf]; ring
    simp only [h1, ← Finset.mul_sum]
    rw [← Finset.sum_mul, hvr, ← hpr k]
    ring
  have hdiag : ∑ i, P i i = n - 1 := by
    simp only [hP]
    rw [Finset.sum_comm]
    have : ∀ k, ∑ i, p k * f i i k = p k * (n - 1) := by
      intro k
      rw [← hpr k, ← hvr k, Finset.mul_sum, Finset.mul_sum]
      exact Finset.sum_congr rfl fun i _ => by simp only [hf]; ring
    rw [Finset.sum_congr rfl fun k _ => this k, ← Finset.sum_mul, h.total, one_mul]
  obtain ⟨z, hz⟩ := exists_zero (by omega : 0 < n) hE
  have hPz : P z z = 0 := by
    simp only [hP, hf, hv]
    exact Finset.sum_eq_zero fun k _ => by rw [hz]; simp
  have hPP : (n : ℝ) - 1 ≤ ∑ i, ∑ j, P i j ^ 2 := by
    have h1 : ∑ i, P i i ^ 2 ≤ ∑ i, ∑ j, P i j ^ 2 :=
      Finset.sum_le_sum fun i _ => Finset.single_le_sum (f := fun j => P i j ^ 2) (fun j _ => sq_nonneg _) (Finset.mem_univ i)
    have h2 := sq_sum_le_card_mul_sum_sq (s := Finset.univ.erase z) (f := fun i => P i i)
    rw [Finset.sum_erase (f := fun i => P i i) _ hPz, hdiag, Finset.card_erase_of_mem (Finset.mem_univ z), Finset.card_univ, Fintype.card_fin,
      Finset.sum_erase (f := fun i => P i i ^ 2) _ (by rw [hPz]; norm_num), Nat.cast_sub (by omega)] at h2
    push_cast at h2
    have h3 : (n : ℝ) - 1 ≤ ∑ i, P i i ^ 2 := by
      by_contra hlt
      push Not at hlt
      nlinarith
    exact h3.trans h1
  have hmean : ∑ d, (∏ t, p (d t)) * F d ≤ (n - 1) * (n - 2) / q := by
    have h1 : ∑ d, (∏ t, p (d t)) * F d = ∑ i, ∑ j, ((∑ k, p k * f i j k ^ 2) - P i j ^ 2) / q := by
      simp only [hF, Finset.mul_sum]
      rw [Finset.sum_comm]
      refine Finset.sum_congr rfl fun i _ => ?_
      rw [Finset.sum_comm]
      exact Finset.sum_congr rfl fun j _ => Draws.variance h.total h.draws (f i j)
    have h2 : ∑ i, ∑ j, ∑ k, p k * f i j k ^ 2 = (n - 1) ^ 2 := by
      have : ∀ i, ∑ j, ∑ k, p k * f i j k ^ 2 = ∑ k, p k * ∑ j, f i j k ^ 2 := fun i => by
        rw [Finset.sum_comm]; exact Finset.sum_congr rfl fun k _ => by rw [Finset.mul_sum]
      simp only [this]
      rw [Finset.sum_comm]
      simp only [← Finset.mul_sum, hsq]
      rw [← Finset.sum_mul, h.total, one_mul]
    rw [h1]
    simp only [← Finset.sum_div, Finset.sum_sub_distrib]
    rw [h2]
    refine div_le_div_of_nonneg_right ?_ hq.le
    nlinarith
  have hF0 : ∀ d, 0 ≤ F d := fun d => Finset.sum_nonneg fun i _ => Finset.sum_nonneg fun j _ => sq_nonneg _
  refine (Draws.markov (A := fun d => ∃ x, δ * dirichlet M x < |dirichlet (W' d) x - dirichlet M x|) (F := fun d => F d / δ ^ 2)
    (fun k => (h.pos k).le) (fun d => by have := hF0 d; positivity) ?_).trans ?_
  · rintro d ⟨x, hx⟩
    have hEx : 0 ≤ dirichlet M x := by rw [← hcx]; exact Finset.sum_nonneg fun j _ => sq_nonneg _
    have h1 := hcs d x
    rw [← sq_abs] at h1
    rw [le_div_iff₀ (by positivity), one_mul]
    rcases hEx.eq_or_lt with hx0 | hx0
    · rw [← hx0] at hx h1
      have : 0 < |dirichlet (W' d) x - 0| := by simpa using hx
      nlinarith
    · by_contra hlt
      push Not at hlt
      have h2 : (δ * dirichlet M x) ^ 2 < |dirichlet (W' d) x - dirichlet M x| ^ 2 := pow_lt_pow_left₀ hx (by positivity) two_ne_zero
      have h3 : dirichlet M x ^ 2 * F d < dirichlet M x ^ 2 * δ ^ 2 := mul_lt_mul_of_pos_left hlt (by positivity)
      nlinarith
  · have h1 : ∑ d, (∏ t, p (d t)) * (F d / δ ^ 2) = (∑ d, (∏ t, p (d t)) * F d) / δ ^ 2 := by
      rw [Finset.sum_div]; exact Finset.sum_congr rfl fun d _ => by ring
    rw [h1, ← div_div]
    exact div_le_div_of_nonneg_right hmean (by positivity)

end Sampled

namespace Reduction

variable {pinv : Matrix (Fin n) (Fin n) ℝ → Matrix (Fin n) (Fin n) ℝ} {draws : ℕ → ℕ → List ℕ}

theorem roundHalfEven_near (x : ℝ) : |(roundHalfEven x : ℝ) - x| ≤ 1 / 2 := by
  have hf := Int.fract_add_floor x
  have h0 := Int.fract_nonneg x
  have h1 := Int.fract_lt_one x
  unfold roundHalfEven
  rw [abs_le]
  split
  · constructor <;> linarith
  · split
    · push_cast; constructor <;> linarith
    · split
      · constructor <;> linarith
      · push_cast; constructor <;> linarith

theorem numDraws_near (hn : 0 < n) (eps : ℝ) : |(numDraws n eps : ℝ) - 16 / 100 * n * Real.log n / eps ^ 2| ≤ 1 / 2 := by
  have h1 : (16 / 100 * n * Real.log n / eps ^ 2 : ℝ) = n * Real.log n * 9 * (4 / 30) ^ 2 / eps ^ 2 := by ring
  rw [h1]
  set x : ℝ := n * Real.log n * 9 * (4 / 30) ^ 2 / eps ^ 2 with hx
  have hx0 : 0 ≤ x := by
    have : 0 ≤ Real.log n := Real.log_nonneg (by exact_mod_cast hn)
    positivity
  have h2 := roundHalfEven_near x
  have h3 : 0 ≤ roundHalfEven x := by
    have := (abs_le.1 h2).1
    have h4 : (-1 : ℝ) < roundHalfEven x := by linarith
    have : (-1 : ℤ) < roundHalfEven x := by exact_mod_cast h4
    omega
  have h4 : ((numDraws n eps : ℕ) : ℝ) = (roundHalfEven x : ℝ) := by
    unfold numDraws
    rw [← hx]
    have := Int.toNat_of_nonneg h3
    exact_mod_cast congrArg (Int.cast (R := ℝ)) this
  rw [h4]
  exact h2

/-- one iteration is the random experiment of the specification -/
theorem once_sampled {M : Matrix (Fin n) (Fin n) ℝ} (hW : Sparsifiable M) (hcon : Connected M) (hn : 2 ≤ n)
    (hp : ∀ A, Aᵀ = A → IsPinv A (pinv A)) {q : ℕ} (hq : 0 < q) :
    ∃ (e : Fin (sparsifyEdges M).length → Fin n × Fin n) (W' : (Fin q → Fin (sparsifyEdges M).length) → Matrix (Fin n) (Fin n) ℝ),
      Spec.Sampled M e (edgeProb (resistanceOfMatrix pinv (combLap M)) (sparsifyEdges M)) W' ∧
      ∀ d, sparsifyOnce (resistanceOfMatrix pinv (combLap M)) (sparsifyEdges M) q (List.ofFn fun t => (d t).1) = .ok (W' d) := by
  classical
  have hedge := edgeProb_eq (pinv := pinv) hW hcon hn hp
  have hres := resistance_spec (pinv := pinv) hW.nonneg hcon (hp _ (combLap_isSymm M))
  have htot := total_score (pinv := pinv) hW hcon (by omega) hp
  set E := sparsifyEdges M with hE
  set Q := resistanceOfMatrix pinv (combLap M) with hQ
  have hsuc : ∀ d : Fin q → Fin E.length, ∃ W', sparsifyOnce Q E q (List.ofFn fun t => (d t).1) = .ok W' := fun d =>
    sparsifyOnce_succeeds (pinv := pinv) hW hcon hn hp hq (List.ofFn fun t => (d t).1)
  choose W' hW' using hsuc
  have hn1 : (0 : ℝ) < n - 1 := by
    have : (2 : ℝ) ≤ n := by exact_mod_cast hn
    linarith
  have hget : ∀ k, (E.get k) = ((E.get k).1, (E.get k).2.1, M (E.get k).1 (E.get k).2.1) := by
    intro k
    have := (hedge k).2.1
    rw [← this]
  have hinj : Function.Injective fun k => ((E.get k).1, (E.get k).2.1) := by
    intro k l hkl
    simp only [Prod.mk.injEq] at hkl
    have : E.get k = E.get l := by rw [hget k, hget l, hkl.1, hkl.2]
    exact (List.nodup_iff_injective_get.1 (sparsifyEdges_nodup M)) this
  refine ⟨fun k => ((E.get k).1, (E.get k).2.1), W', ⟨hq, hinj, ?_, ?_, ?_, ?_, ?_, ?_, ?_⟩, hW'⟩
  · intro i j
    constructor
    · rintro ⟨k, hk⟩
      simp only [Prod.mk.injEq] at hk
      obtain ⟨a, b, c, -⟩ := hedge k
      rw [b] at c
      rw [hk.1, hk.2] at a c
      exact ⟨a, c.ne'⟩
    · rintro ⟨hji, hne⟩
      have : (i, j, M i j) ∈ E := mem_sparsifyEdges.2 ⟨hji.le, (hW.ne_iff i j).2 hne, rfl⟩
      obtain ⟨k, hk⟩ := List.get_of_mem this
      exact ⟨k, by simp only [hk]⟩
  · intro k r hr
    obtain ⟨-, -, -, -, h5⟩ := hedge k
    rw [h5]
    obtain ⟨⟨v, hv⟩, -⟩ := hres (E.get k).1 (E.get k).2.1
    rw [← (hres (E.get k).1 (E.get k).2.1).2 v hv, ← hr.2 v hv]
  · intro k
    obtain ⟨-, h2, h3, h4, h5⟩ := hedge k
    rw [h5, ← h2]
    positivity
  · unfold edgeProb
    rw [← Finset.sum_div, htot, div_self hn1.ne']
  · intro d i j
    exact (weights_core (hW' d)).1 i j
  · intro d i j h0
    by_contra hc
    have := (weights_core (hW' d)).2.2.2 i j hc
    rw [hW.ne_iff] at this
    rcases le_total i j with h | h
    · rw [max_eq_right h, min_eq_left h, hW.undirected j i] at this; exact this h0
    · rw [max_eq_left h, min_eq_right h] at this; exact this h0
  · intro d k
    obtain ⟨hlt, h2, h3, -, -⟩ := hedge k
    rw [(sparsifyOnce_ok (hW' d)).2]
    rw [Finset.sum_eq_single k, Finset.sum_eq_zero (s := Finset.univ) (f := fun l => if (E.get l).1 = (E.get k).2.1 ∧ (E.get l).2.1 = (E.get k).1 then _ else _)]
    · rw [if_pos ⟨rfl, rfl⟩, add_zero, count_ofFn, max_eq_right h3.le, h2, ← Sampled.card_eq]
      rw [mul_div_assoc]
    · intro l _
      refine if_neg ?_
      rintro ⟨a, b⟩
      have := (hedge l).1
      rw [a, b] at this
      exact this.asymm hlt
    · intro l _ hl
      refine if_neg ?_
      rintro ⟨a, b⟩
      exact hl (hinj (Prod.ext a b))
    · simp

end Reduction

variable {S : Solvers n} {g : Graph n ℝ} {s : GState n}
variable {pinv : Matrix (Fin n) (Fin n) ℝ → Matrix (Fin n) (Fin n) ℝ} {draws : ℕ → ℕ → List ℕ}

/-- **C119** One attempt (`maxiter=1`) of `graph_sparsify` is the random experiment of the specification, with
`q = 0.16 N log(N) / epsilon^2` draws, rounded. -/
theorem C119_law (hS : Sound S) (hg : g.Built) (hist : List (Op n)) (hs : s = runAll S hist (GState.ofGraph g))
    (hc : s.lapType = .combinatorial) (hW : Sparsifiable g.W.dense) (hcon : Connected g.W.dense)
    (hp : ∀ A, Aᵀ = A → IsPinv A (pinv A)) (hn : 3 ≤ n) {eps : ℝ} (h1 : 1 / Real.sqrt n ≤ eps) (h2 : eps < 1) (pop : Pop n) :
    ∃ (q m : ℕ) (e : Fin m → Fin n × Fin n) (p : Fin m → ℝ) (G' : (Fin q → Fin m) → Graph n ℝ),
      |(q : ℝ) - 16 / 100 * n * Real.log n / eps ^ 2| ≤ 1 / 2 ∧ Spec.Sampled g.W.dense e p (fun d => (G' d).W.dense) ∧
      ∀ d, graphSparsify pop pinv (fun _ _ => List.ofFn fun t => (d t).1) eps 1 s = .ok (G' d) := by
  obtain ⟨hL, hWd⟩ := state_core hS hg hs hc
  have hsq : 0 < 1 / Real.sqrt n := by
    have : (0 : ℝ) < n := by exact_mod_cast (by omega : 0 < n)
    positivity
  have hqpos : 0 < numDraws n eps := numDraws_pos hn (by linarith) h2
  obtain ⟨e, W', hsam, hone⟩ := once_sampled (pinv := pinv) hW hcon (by omega) hp hqpos
  choose G' hG' using fun d : Fin (numDraws n eps) → Fin (sparsifyEdges g.W.dense).length =>
    C66_total hS hg hist hs hc hW hcon hp hn h1 h2 Nat.one_pos pop (fun _ _ => List.ofFn fun t => (d t).1)
  have hwts : (fun d => (G' d).W.dense) = W' := by
    funext d
    obtain ⟨-, hw, -⟩ := weights_of_graph (hG' d)
    rw [hL, hWd, (sparsifyWeights_eq hW hcon (by omega) hp pop _ h1 h2 0).2] at hw
    unfold sparsifyLoop at hw
    rw [hone d] at hw
    obtain ⟨g1, e1, e2, -⟩ := Graph.ofCsr_ofDense (W' d) (lt := .combinatorial) (.inl rfl)
    obtain ⟨b, hb, -⟩ := isConnected_spec (ofGraph_inv (S := S) g1 e2).1.pure (ofGraph_inv (S := S) g1 e2).1.built (by omega) pop
    simp only [e1, hb] at hw
    cases b <;> exact (Except.ok.inj hw).symm
  refine ⟨numDraws n eps, _, e, edgeProb (resistanceOfMatrix pinv (combLap g.W.dense)) (sparsifyEdges g.W.dense), G', numDraws_near (by omega) eps, ?_, hG'⟩
  rw [hwts]
  exact hsam

section Law

variable {q m : ℕ} {M : Matrix (Fin n) (Fin n) ℝ} {e : Fin m → Fin n × Fin n} {p : Fin m → ℝ} {W' : (Fin q → Fin m) → Matrix (Fin n) (Fin n) ℝ}

/-- **C119** The energy of a signal on the sparsified graph is right on average. -/
theorem C119_mean (h : Spec.Sampled M e p W') (hW : Sparsifiable M) (x : Fin n → ℝ) : ∑ d, (∏ t, p (d t)) * dirichlet (W' d) x = dirichlet M x := by
  have hq : (q : ℝ) ≠ 0 := by exact_mod_cast h.draws.ne'
  have h1 : ∀ d, (∏ t, p (d t)) * dirichlet (W' d) x = (∑ t, (∏ u, p (d u)) * Sampled.Z M e p x (d t)) / q := by
    intro d; rw [Sampled.energy h, mul_div_assoc', Finset.mul_sum]
  rw [Finset.sum_congr rfl fun d _ => h1 d, ← Finset.sum_div, Finset.sum_comm,
    Finset.sum_congr rfl fun t _ => Draws.mean_one h.total (Sampled.Z M e p x) t, Sampled.mean h hW]
  simp only [Finset.sum_const, Finset.card_univ, Fintype.card_fin, nsmul_eq_mul]
  field_simp

/-- **C119** ... and its variance is at most `(N - 2) / q` times its square. -/
theorem C119_variance (h : Spec.Sampled M e p W') (hW : Sparsifiable M) (hcon : Connected M) (x : Fin n → ℝ) :
    ∑ d, (∏ t, p (d t)) * (dirichlet (W' d) x - dirichlet M x) ^ 2 ≤ (n - 2) / q * dirichlet M x ^ 2 := by
  have hq : (0 : ℝ) < q := by exact_mod_cast h.draws
  have h1 := Draws.variance h.total h.draws (Sampled.Z M e p x)
  rw [Sampled.mean h hW] at h1
  simp only [← Sampled.energy h] at h1
  rw [h1]
  have h2 : ∑ k, p k * Sampled.Z M e p x k ^ 2 ≤ (n - 1) * dirichlet M x ^ 2 := by
    calc ∑ k, p k * Sampled.Z M e p x k ^ 2 ≤ ∑ k, p k * Sampled.Z M e p x k * ((n - 1) * dirichlet M x) := by
          refine Finset.sum_le_sum fun k _ => ?_
          have := Sampled.bound h hW hcon x k
          rw [sq, ← mul_assoc]
          exact mul_le_mul_of_nonneg_left this.2 (mul_nonneg (h.pos k).le this.1)
      _ = _ := by rw [← Finset.sum_mul, Sampled.mean h hW]; ring
  rw [div_mul_eq_mul_div]
  exact div_le_div_of_nonneg_right (by linarith) hq.le

open Classical in
/-- **C119** The energy of a given signal on the sparsified graph is off by more than a factor `1 ± δ` with a probability of at most
`2 exp(-q δ² / (4 (N - 1)))`. -/
theorem C119_one_signal (h : Spec.Sampled M e p W') (hW : Sparsifiable M) (hcon : Connected M) (x : Fin n → ℝ) {δ : ℝ} (h0 : 0 < δ) (h2 : δ ≤ 2) :
    ∑ d with δ * dirichlet M x < |dirichlet (W' d) x - dirichlet M x|, ∏ t, p (d t) ≤ 2 * Real.exp (-(q * δ ^ 2 / (4 * (n - 1)))) :=
  Sampled.one_signal h hW hcon x h0 h2

open Classical in
/-- **C119** The energies of all the signals on the sparsified graph are right up to a factor `1 ± δ`, except with a probability of at
most `(N - 1) (N - 2) / (q δ²)`. -/
theorem C119_all_signals (h : Spec.Sampled M e p W') (hW : Sparsifiable M) (hcon : Connected M) {δ : ℝ} (h0 : 0 < δ) :
    ∑ d with ∃ x, δ * dirichlet M x < |dirichlet (W' d) x - dirichlet M x|, ∏ t, p (d t) ≤ (n - 1) * (n - 2) / (q * δ ^ 2) :=
  Sampled.all_signals h hW hcon h0

theorem eigenPairs_smul {L U : Matrix (Fin n) (Fin n) ℝ} {a : Fin n → ℝ} (h : IsEigenPairs L a U) (c : ℝ) : IsEigenPairs (c • L) (fun k => c * a k) U := by
  refine ⟨h.orthonormal, ?_⟩
  rw [Matrix.smul_mul, h.eig, ← Matrix.mul_smul]
  congr 1
  ext i j
  simp [Matrix.diagonal_apply]

/-- **C119** Comparing the energies of all the signals compares the frequencies. -/
theorem frequencies_of_energies {A B : Matrix (Fin n) (Fin n) ℝ} {a b : Fin n → ℝ} {U V : Matrix (Fin n) (Fin n) ℝ} (hA : IsEigenPairs (combLap A) a U)
    (hB : IsEigenPairs (combLap B) b V) (ha : Monotone a) (hb : Monotone b) {c : ℝ} (hc : 0 ≤ c) (hq : ∀ x, dirichlet A x ≤ c * dirichlet B x) (k : Fin n) : a k ≤ c * b k := by
  refine Weyl.le_of_quad_le hA (eigenPairs_smul hB c) ha (fun i j hij => mul_le_mul_of_nonneg_left (hb hij) hc) (fun x => ?_) k
  rw [Matrix.smul_mulVec, dotProduct_smul, smul_eq_mul, combLap_quad, combLap_quad]
  exact hq x

open Classical in
/-- **C119** All the frequencies of the sparsified graph are right up to a factor `1 ± δ`, except with a probability of at most
`(N - 1) (N - 2) / (q δ²)`. -/
theorem C119_frequencies (h : Spec.Sampled M e p W') (hW : Sparsifiable M) (hcon : Connected M) {δ : ℝ} (h0 : 0 < δ)
    {a : Fin n → ℝ} {U : Matrix (Fin n) (Fin n) ℝ} (ha : IsEigenPairs (combLap M) a U) (ham : Monotone a)
    {a' : (Fin q → Fin m) → Fin n → ℝ} {U' : (Fin q → Fin m) → Matrix (Fin n) (Fin n) ℝ}
    (ha' : ∀ d, IsEigenPairs (combLap (W' d)) (a' d) (U' d)) (ham' : ∀ d, Monotone (a' d)) :
    ∑ d with ∃ k, δ * a k < |a' d k - a k|, ∏ t, p (d t) ≤ (n - 1) * (n - 2) / (q * δ ^ 2) := by
  refine le_trans ?_ (C119_all_signals h hW hcon h0)
  refine Finset.sum_le_sum_of_subset_of_nonneg ?_ (fun d _ _ => Finset.prod_nonneg fun t _ => (h.pos _).le)
  intro d hd
  obtain ⟨k, hk⟩ := (Finset.mem_filter.1 hd).2
  refine Finset.mem_filter.2 ⟨Finset.mem_univ _, ?_⟩
  by_contra hcx
  push Not at hcx
  have hak := Sampled.eig_nonneg hW.nonneg ha k
  have hW'0 : NonnegW (W' d) := by
    intro i j
    by_cases hM : M i j = 0
    · rw [h.rest d i j hM]
    · have hpos : ∀ i j, j < i → M i j ≠ 0 → 0 ≤ W' d i j := by
        intro i j hij hM
        obtain ⟨l, hl⟩ := (h.edges i j).2 ⟨hij, hM⟩
        have h1 := h.weight d l
        rw [hl] at h1
        rw [h1]
        have h3 := hW.nonneg i j
        have h4 := h.pos l
        positivity
      rcases lt_trichotomy i j with hij | hij | hij
      · rw [h.symm]; exact hpos j i hij (by rw [hW.undirected j i]; exact hM)
      · subst hij; exact absurd (hW.loopless i) hM
      · exact hpos i j hij hM
  have hup : a' d k ≤ (1 + δ) * a k := frequencies_of_energies (ha' d) ha (ham' d) ham (by linarith) (fun x => by
    have := (abs_le.1 (hcx x)).2; linarith) k
  have hlo : (1 - δ) * a k ≤ a' d k := by
    rcases le_or_gt 1 δ with h1 | h1
    · have := Sampled.eig_nonneg hW'0 (ha' d) k
      nlinarith
    · have hd0 : 0 ≤ 1 / (1 - δ) := one_div_nonneg.2 (by linarith)
      have := frequencies_of_energies (c := 1 / (1 - δ)) ha (ha' d) ham (ham' d) hd0 (fun x => by
        have h5 := (abs_le.1 (hcx x)).1
        rw [div_mul_eq_mul_div, one_mul, le_div_iff₀ (by linarith)]; linarith) k
      rw [div_mul_eq_mul_div, one_mul, le_div_iff₀ (by linarith)] at this
      linarith
  refine absurd hk (not_lt.2 (abs_le.2 ⟨?_, ?_⟩)) <;> linarith

theorem exists_lost {A : Matrix (Fin n) (Fin n) ℝ} (hM : NonnegW M) (hcon : Connected M) (hA : ¬ Connected A) : ∃ x, dirichlet A x = 0 ∧ 0 < dirichlet M x := by
  classical
  unfold Connected at hA
  push Not at hA
  obtain ⟨i, j, hij⟩ := hA
  refine ⟨fun v => if Linked A i v then 1 else 0, ?_, ?_⟩
  · unfold dirichlet
    rw [Finset.sum_eq_zero, mul_zero]
    intro u _
    refine Finset.sum_eq_zero fun v _ => ?_
    by_cases h : A u v = 0
    · rw [h, zero_mul]
    · have : Linked A i u ↔ Linked A i v := ⟨fun h1 => h1.tail (.inl h), fun h1 => h1.tail (.inr h)⟩
      simp [this]
  · have h1 := Learning.combLap_psd hM (fun v => if Linked A i v then (1 : ℝ) else 0)
    rw [combLap_quad] at h1
    refine lt_of_le_of_ne h1 fun h2 => ?_
    have h3 := Learning.quad_zero_linked hM (w := fun v => if Linked A i v then (1 : ℝ) else 0) (by
      unfold smoothness; rw [combLap_quad, ← h2]) (hcon i j)
    simp only [if_neg hij] at h3
    rw [if_pos (show Linked A i i from Relation.ReflTransGen.refl)] at h3
    exact one_ne_zero h3

open Classical in
/-- **C119** One attempt gives a disconnected graph with a probability of at most `(N - 1) (N - 2) / q`. -/
theorem C119_connected (h : Spec.Sampled M e p W') (hW : Sparsifiable M) (hcon : Connected M) :
    ∑ d with ¬ Connected (W' d), ∏ t, p (d t) ≤ (n - 1) * (n - 2) / q := by
  have hq : (0 : ℝ) < q := by exact_mod_cast h.draws
  set T := ∑ d with ¬ Connected (W' d), ∏ t, p (d t) with hT
  have hT0 : 0 ≤ T := Finset.sum_nonneg fun d _ => Finset.prod_nonneg fun t _ => (h.pos _).le
  have key : ∀ δ : ℝ, 0 < δ → δ < 1 → T * δ ^ 2 ≤ (n - 1) * (n - 2) / q := by
    intro δ h0 h1
    have h2 : T ≤ (n - 1) * (n - 2) / (q * δ ^ 2) := by
      refine le_trans ?_ (C119_all_signals h hW hcon h0)
      refine Finset.sum_le_sum_of_subset_of_nonneg ?_ (fun d _ _ => Finset.prod_nonneg fun t _ => (h.pos _).le)
      intro d hd
      obtain ⟨x, hx, hx0⟩ := exists_lost hW.nonneg hcon (Finset.mem_filter.1 hd).2
      refine Finset.mem_filter.2 ⟨Finset.mem_univ _, x, ?_⟩
      rw [hx, zero_sub, abs_neg, abs_of_pos hx0]
      nlinarith
    rw [← div_div, le_div_iff₀ (by positivity)] at h2
    exact h2
  by_contra hlt
  push Not at hlt
  set B := ((n : ℝ) - 1) * (n - 2) / q with hB
  have hB0 : 0 ≤ B := by
    have : (2 : ℝ) ≤ n := by exact_mod_cast Sampled.two_le h
    have h1 : (0 : ℝ) ≤ n - 1 := by linarith
    have h2 : (0 : ℝ) ≤ n - 2 := by linarith
    positivity
  have hTp : 0 < T := lt_of_le_of_lt hB0 hlt
  have h3 : (1 + B / T) / 2 < 1 := by
    have : B / T < 1 := (div_lt_one hTp).2 hlt
    linarith
  have h4 : 0 < (1 + B / T) / 2 := by positivity
  have h5 := key (Real.sqrt ((1 + B / T) / 2)) (Real.sqrt_pos.2 h4) ((Real.sqrt_lt' one_pos).2 (by simpa using h3))
  rw [Real.sq_sqrt h4.le] at h5
  have : T * ((1 + B / T) / 2) = (T + B) / 2 := by field_simp
  linarith

end Law

/-- **C119** Whatever the random generator returns, sparsifying never multiplies the energy of a signal by more than `N - 1`, and no
frequency by more than `N - 1`. -/
theorem C119_upper (hS : Sound S) (hg : g.Built) (hist : List (Op n)) (hs : s = runAll S hist (GState.ofGraph g))
    (hW : Sparsifiable g.W.dense) (hcon : Connected g.W.dense) (hp : ∀ A, Aᵀ = A → IsPinv A (pinv A))
    (hd : IsSampler (edgeCount g.W.dense) draws) {pop : Pop n} {eps : ℝ} {maxiter : ℕ} {g' : Graph n ℝ}
    (h : graphSparsify pop pinv draws eps maxiter s = .ok g') :
    (∀ x, dirichlet g'.W.dense x ≤ (n - 1) * dirichlet g.W.dense x) ∧
    ∀ {a a' : Fin n → ℝ} {U U' : Matrix (Fin n) (Fin n) ℝ}, IsEigenPairs (combLap g.W.dense) a U → Monotone a →
      IsEigenPairs (combLap g'.W.dense) a' U' → Monotone a' → ∀ k, a' k ≤ (n - 1) * a k := by
  obtain ⟨hc, hw, hb⟩ := weights_of_graph h
  obtain ⟨hL, hWd⟩ := state_core hS hg hs hc
  rw [hL, hWd] at hw
  obtain ⟨hn, -, -, hsc, i0, eps', -, -, ho⟩ := sparsifyWeights_ok hw
  have hT := total_score (pinv := pinv) hW hcon hn hp
  have hn2 : 2 ≤ n := by
    by_contra hlt
    have : n = 1 := by omega
    apply hsc
    rw [hT, this]; simp
  have hE : 0 < (sparsifyEdges g.W.dense).length := by
    rcases Nat.eq_zero_or_pos (sparsifyEdges g.W.dense).length with h0 | h0
    · exact absurd (Finset.sum_eq_zero fun k _ => absurd k.2 (by omega)) hsc
    · exact h0
  have hq : 0 < numDraws n eps' := (edgeProb_ne ((sparsifyOnce_ok ho).1 ⟨0, hE⟩)).1
  obtain ⟨hd1, hd2⟩ := hd i0 (numDraws n eps')
  rw [← length_edges hW] at hd2
  obtain ⟨e, W', hsam, hone⟩ := once_sampled (pinv := pinv) hW hcon hn2 hp hq
  set d : Fin (numDraws n eps') → Fin (sparsifyEdges g.W.dense).length :=
    fun t => ⟨(draws i0 (numDraws n eps')).get (t.cast hd1.symm), hd2 _ (List.get_mem _ _)⟩ with hdd
  have hlist : (List.ofFn fun t => (d t).1) = draws i0 (numDraws n eps') := by
    apply List.ext_get
    · simp [hd1]
    · intro i h1 h2
      simp [hdd]
  have hwd := hone d
  rw [hlist, ho] at hwd
  have hgW : g'.W.dense = W' d := Except.ok.inj hwd
  have hen : ∀ x, dirichlet g'.W.dense x ≤ (n - 1) * dirichlet g.W.dense x := by
    intro x
    rw [hgW, Sampled.energy hsam]
    have hq' : (0 : ℝ) < (numDraws n eps' : ℕ) := by exact_mod_cast hq
    rw [div_le_iff₀ hq']
    calc _ ≤ ∑ _t : Fin (numDraws n eps'), (n - 1) * dirichlet g.W.dense x := Finset.sum_le_sum fun t _ => (Sampled.bound hsam hW hcon x (d t)).2
      _ = _ := by simp; ring
  refine ⟨hen, fun {a a' U U'} h1 h2 h3 h4 k => frequencies_of_energies h3 h1 h4 h2 ?_ hen k⟩
  have : (2 : ℝ) ≤ n := by exact_mod_cast hn2
  linarith

/-- A reachable case: the path with four vertices, `epsilon = 1/2`. -/
example : ∃ (g : Graph 4 ℝ) (S : Solvers 4) (s : GState 4) (pinv : Matrix (Fin 4) (Fin 4) ℝ → Matrix (Fin 4) (Fin 4) ℝ),
    g.Built ∧ Sound S ∧ s = runAll S [.computeFourierBasis none] (GState.ofGraph g) ∧
    s.lapType = .combinatorial ∧ Sparsifiable g.W.dense ∧ Connected g.W.dense ∧ (∀ A, Aᵀ = A → IsPinv A (pinv A)) ∧
    1 / Real.sqrt (4 : ℕ) ≤ 1 / 2 ∧ ∃ (q m : ℕ) (e : Fin m → Fin 4 × Fin 4) (p : Fin m → ℝ) (W' : (Fin q → Fin m) → Matrix (Fin 4) (Fin 4) ℝ),
      Spec.Sampled g.W.dense e p W' := by
  obtain ⟨g, hg, hd, S, hS, s, hs, hk, -, l, ⟨hl0, hc, -⟩, -⟩ :=
    exists_setup path4 path4_nonneg (i := 0) (j := 1) (by decide) (by simp [path4])
  obtain ⟨pinv, hp⟩ := exists_pinv (n := 4)
  have hsp : Sparsifiable path4 := by
    refine ⟨fun i j => ?_, fun i => ?_, fun i j => ?_⟩
    · fin_cases i <;> fin_cases j <;> simp [path4]
    · fin_cases i <;> simp [path4]
    · fin_cases i <;> fin_cases j <;> simp [path4] <;> norm_num
  have hsq : 1 / Real.sqrt (4 : ℕ) ≤ 1 / 2 := by
    rw [show ((4 : ℕ) : ℝ) = 2 ^ 2 by norm_num, Real.sqrt_sq (by norm_num)]
  rw [← hd] at hsp
  have hcon : Connected g.W.dense := by rw [hd]; exact path4_connected
  obtain ⟨q, m, e, p, G', -, h, -⟩ := C119_law hS hg _ hs hc hsp hcon hp (by norm_num) hsq (by norm_num) (Pop.smallest 4)
  exact ⟨g, S, s, pinv, hg, hS, hs, hc, hsp, hcon, hp, hsq, q, m, e, p, _, h⟩

end PyGSP
