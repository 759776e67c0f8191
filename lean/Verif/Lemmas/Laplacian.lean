import Verif.Model.Laplacian
import Verif.Lemmas.Edges
import Verif.Spec.Spectral
import Mathlib.Tactic
import Mathlib.LinearAlgebra.Matrix.Symmetric

namespace PyGSP

open Matrix Spec

variable {n : ℕ}

theorem lapWeights_apply (W : Sp n n ℝ) (i j : Fin n) : lapWeights W i j = wsym W.dense i j := by
  unfold lapWeights wsym
  split
  · rfl
  · rename_i h
    have hu : Undirected W.dense := by rw [← isDirected_eq_false_iff]; simpa using h
    rw [hu j i]; ring

theorem dw_eq (W : Sp n n ℝ) (i : Fin n) : dw W i = wdeg W.dense i := by
  unfold dw wdeg
  split
  · rfl
  · rename_i h
    have hu : Undirected W.dense := by rw [← isDirected_eq_false_iff]; simpa using h
    have : ∑ j, W.dense i j = ∑ j, W.dense j i := Finset.sum_congr rfl fun j _ => hu i j
    rw [this]; ring

theorem wsym_comm (M : Matrix (Fin n) (Fin n) ℝ) (i j : Fin n) : wsym M i j = wsym M j i := by
  unfold wsym; ring

theorem sum_wsym (M : Matrix (Fin n) (Fin n) ℝ) (i : Fin n) : ∑ j, wsym M i j = wdeg M i := by
  unfold wsym wdeg
  rw [← Finset.sum_add_distrib, ← Finset.sum_div]
  congr 1
  exact Finset.sum_congr rfl fun j _ => add_comm _ _

theorem wsym_nonneg {M : Matrix (Fin n) (Fin n) ℝ} (h : NonnegW M) (i j : Fin n) : 0 ≤ wsym M i j := by
  unfold wsym
  have := h i j
  have := h j i
  linarith

theorem wdeg_nonneg {M : Matrix (Fin n) (Fin n) ℝ} (h : NonnegW M) (i : Fin n) : 0 ≤ wdeg M i := by
  rw [← sum_wsym]
  exact Finset.sum_nonneg fun j _ => wsym_nonneg h i j

/-- a vertex of zero degree has only zero weights (non-negative case) -/
theorem wsym_eq_zero_of_wdeg {M : Matrix (Fin n) (Fin n) ℝ} (h : NonnegW M) {i : Fin n} (hi : wdeg M i = 0)
    (j : Fin n) : wsym M i j = 0 := by
  rw [← sum_wsym, Finset.sum_eq_zero_iff_of_nonneg (fun j _ => wsym_nonneg h i j)] at hi
  exact hi j (Finset.mem_univ _)

theorem entry_eq_zero_of_wdeg {M : Matrix (Fin n) (Fin n) ℝ} (h : NonnegW M) {i : Fin n} (hi : wdeg M i = 0)
    (j : Fin n) : M i j = 0 ∧ M j i = 0 := by
  have h1 := wsym_eq_zero_of_wdeg h hi j
  unfold wsym at h1
  have := h i j
  have := h j i
  constructor <;> linarith

/-- The combinatorial Laplacian of a weight matrix, entry-wise. -/
noncomputable def combLap (M : Matrix (Fin n) (Fin n) ℝ) : Matrix (Fin n) (Fin n) ℝ :=
  Matrix.of fun i j => (if i = j then wdeg M i else 0) - wsym M i j

/-- scaling used by the normalized Laplacian -/
noncomputable def nscale (M : Matrix (Fin n) (Fin n) ℝ) (i : Fin n) : ℝ :=
  if wdeg M i = 0 then 0 else 1 / Real.sqrt (wdeg M i)

theorem laplacian_comb (W : Sp n n ℝ) : laplacian W .combinatorial = .ok (combLap W.dense) := by
  refine congrArg Except.ok ?_
  ext i j
  simp only [combLap, Matrix.sub_apply, Matrix.diagonal_apply, Matrix.of_apply, lapWeights_apply]
  split
  · rename_i h; subst h; rw [dw_eq]
  · rfl

theorem invSqrtDegree_eq (W : Sp n n ℝ) (h : NonnegW W.dense) (i : Fin n) :
    invSqrtDegree W i = nscale W.dense i := by
  unfold invSqrtDegree nscale
  rw [dw_eq]
  split
  · rfl
  · rw [Real.rpow_neg (wdeg_nonneg h i), ← Real.sqrt_eq_rpow, one_div]

theorem nscale_sq (M : Matrix (Fin n) (Fin n) ℝ) (h : NonnegW M) (i : Fin n) :
    nscale M i * nscale M i * wdeg M i = if wdeg M i = 0 then 0 else 1 := by
  unfold nscale
  split
  · simp
  · rename_i h0
    have hp : 0 < wdeg M i := lt_of_le_of_ne (wdeg_nonneg h i) (Ne.symm h0)
    have := Real.mul_self_sqrt hp.le
    have hs : Real.sqrt (wdeg M i) ≠ 0 := by
      intro h1; rw [h1] at this; simp at this; exact h0 this.symm
    field_simp
    nlinarith

/-- The normalized Laplacian is the combinatorial one scaled on both sides. -/
theorem laplacian_norm (W : Sp n n ℝ) (h : NonnegW W.dense) :
    laplacian W .normalized
      = .ok (Matrix.of fun i j => nscale W.dense i * combLap W.dense i j * nscale W.dense j) := by
  unfold laplacian
  simp only
  congr 1
  ext i j
  simp only [Matrix.of_apply, Matrix.sub_apply, Matrix.one_apply, combLap]
  rw [Matrix.mul_diagonal, Matrix.diagonal_mul, lapWeights_apply, invSqrtDegree_eq W h, invSqrtDegree_eq W h,
    dw_eq]
  have hsq := nscale_sq W.dense h i
  by_cases hij : i = j
  · subst hij
    by_cases hd : wdeg W.dense i = 0
    · rw [if_pos ⟨rfl, hd⟩]
      simp [nscale, hd]
    · rw [if_neg (by simp [hd]), if_pos rfl, if_pos rfl]
      rw [if_neg hd] at hsq
      rw [← hsq]; ring
  · rw [if_neg (by simp [hij]), if_neg hij, if_neg hij]
    ring

theorem combLap_symm (M : Matrix (Fin n) (Fin n) ℝ) (i j : Fin n) : combLap M i j = combLap M j i := by
  simp only [combLap, Matrix.of_apply]
  rw [wsym_comm]
  by_cases h : i = j
  · subst h; rfl
  · rw [if_neg h, if_neg (Ne.symm h)]

theorem combLap_mulVec (M : Matrix (Fin n) (Fin n) ℝ) (x : Fin n → ℝ) (i : Fin n) :
    (combLap M *ᵥ x) i = ∑ j, wsym M i j * (x i - x j) := by
  simp only [Matrix.mulVec, dotProduct, combLap, Matrix.of_apply, sub_mul, mul_sub,
    Finset.sum_sub_distrib, ite_mul, zero_mul]
  rw [Finset.sum_ite_eq]
  simp only [Finset.mem_univ, if_true]
  rw [← Finset.sum_mul, sum_wsym]

theorem sum_swap (f : Fin n → Fin n → ℝ) : ∑ i, ∑ j, f i j = ∑ i, ∑ j, f j i := Finset.sum_comm

theorem quad_symm (S : Fin n → Fin n → ℝ) (hS : ∀ i j, S i j = S j i) (x : Fin n → ℝ) :
    ∑ i, x i * ∑ j, S i j * (x i - x j) = 1 / 2 * ∑ i, ∑ j, S i j * (x i - x j) ^ 2 := by
  have h1 : ∑ i, x i * ∑ j, S i j * (x i - x j) = ∑ i, ∑ j, S i j * (x i * (x i - x j)) := by
    refine Finset.sum_congr rfl fun i _ => ?_
    rw [Finset.mul_sum]
    exact Finset.sum_congr rfl fun j _ => by ring
  have h2 : ∑ i, ∑ j, S i j * (x i * (x i - x j)) = ∑ i, ∑ j, S i j * (x j * (x j - x i)) := by
    rw [sum_swap]
    exact Finset.sum_congr rfl fun i _ => Finset.sum_congr rfl fun j _ => by rw [hS]
  have h3 : ∑ i, ∑ j, S i j * (x i - x j) ^ 2
      = ∑ i, ∑ j, S i j * (x i * (x i - x j)) + ∑ i, ∑ j, S i j * (x j * (x j - x i)) := by
    rw [← Finset.sum_add_distrib]
    refine Finset.sum_congr rfl fun i _ => ?_
    rw [← Finset.sum_add_distrib]
    exact Finset.sum_congr rfl fun j _ => by ring
  rw [h1, h3, ← h2]; ring

theorem dirichlet_wsym (M : Matrix (Fin n) (Fin n) ℝ) (x : Fin n → ℝ) :
    dirichlet M x = 1 / 2 * ∑ i, ∑ j, wsym M i j * (x i - x j) ^ 2 := by
  unfold dirichlet
  congr 1
  have h2 : ∑ i, ∑ j, M i j * (x i - x j) ^ 2 = ∑ i, ∑ j, M j i * (x i - x j) ^ 2 := by
    rw [sum_swap]
    exact Finset.sum_congr rfl fun i _ => Finset.sum_congr rfl fun j _ => by ring
  have h3 : ∑ i, ∑ j, wsym M i j * (x i - x j) ^ 2
      = (∑ i, ∑ j, M i j * (x i - x j) ^ 2 + ∑ i, ∑ j, M j i * (x i - x j) ^ 2) / 2 := by
    rw [← Finset.sum_add_distrib, Finset.sum_div]
    refine Finset.sum_congr rfl fun i _ => ?_
    rw [← Finset.sum_add_distrib, Finset.sum_div]
    exact Finset.sum_congr rfl fun j _ => by unfold wsym; ring
  rw [h3, ← h2]; ring

theorem combLap_quad (M : Matrix (Fin n) (Fin n) ℝ) (x : Fin n → ℝ) :
    x ⬝ᵥ (combLap M *ᵥ x) = dirichlet M x := by
  rw [dirichlet_wsym, ← quad_symm _ (wsym_comm M)]
  simp only [dotProduct, combLap_mulVec]

theorem dirichlet_nonneg {M : Matrix (Fin n) (Fin n) ℝ} (h : NonnegW M) (x : Fin n → ℝ) :
    0 ≤ dirichlet M x := by
  unfold dirichlet
  have : 0 ≤ ∑ i, ∑ j, M i j * (x i - x j) ^ 2 :=
    Finset.sum_nonneg fun i _ => Finset.sum_nonneg fun j _ => mul_nonneg (h i j) (sq_nonneg _)
  linarith

/-- scaled matrix acts by scaling -/
theorem scaled_mulVec (s : Fin n → ℝ) (L : Matrix (Fin n) (Fin n) ℝ) (x : Fin n → ℝ) (i : Fin n) :
    ((Matrix.of fun i j => s i * L i j * s j) *ᵥ x) i = s i * (L *ᵥ fun j => s j * x j) i := by
  simp only [Matrix.mulVec, dotProduct, Matrix.of_apply, Finset.mul_sum]
  exact Finset.sum_congr rfl fun j _ => by ring

theorem scaled_quad (s : Fin n → ℝ) (L : Matrix (Fin n) (Fin n) ℝ) (x : Fin n → ℝ) :
    x ⬝ᵥ ((Matrix.of fun i j => s i * L i j * s j) *ᵥ x) = (fun j => s j * x j) ⬝ᵥ (L *ᵥ fun j => s j * x j) := by
  simp only [dotProduct, scaled_mulVec]
  exact Finset.sum_congr rfl fun i _ => by ring

/-! ### eigenvalue bounds -/

theorem isEigenvalue_quad {L : Matrix (Fin n) (Fin n) ℝ} {l : ℝ} {x : Fin n → ℝ} (h : L *ᵥ x = l • x) :
    x ⬝ᵥ (L *ᵥ x) = l * (x ⬝ᵥ x) := by
  rw [h, dotProduct_smul, smul_eq_mul]

theorem dot_self_pos {x : Fin n → ℝ} (hx : x ≠ 0) : 0 < x ⬝ᵥ x := by
  have h0 : 0 ≤ x ⬝ᵥ x := Finset.sum_nonneg fun i _ => mul_self_nonneg _
  refine lt_of_le_of_ne h0 fun h => hx ?_
  have h1 := (Finset.sum_eq_zero_iff_of_nonneg (fun i _ => mul_self_nonneg (x i))).1 h.symm
  ext i
  exact mul_self_eq_zero.1 (h1 i (Finset.mem_univ _))

theorem eig_nonneg {L : Matrix (Fin n) (Fin n) ℝ} (hL : PSD L) {l : ℝ} (h : IsEigenvalue L l) : 0 ≤ l := by
  obtain ⟨x, hx, he⟩ := h
  have h1 := hL x
  rw [isEigenvalue_quad he] at h1
  exact nonneg_of_mul_nonneg_left h1 (dot_self_pos hx)

theorem eig_le_of_quad_le {L : Matrix (Fin n) (Fin n) ℝ} {l B : ℝ} (hq : ∀ x, x ⬝ᵥ (L *ᵥ x) ≤ B * (x ⬝ᵥ x))
    (h : IsEigenvalue L l) : l ≤ B := by
  obtain ⟨x, hx, he⟩ := h
  have h1 := hq x
  rw [isEigenvalue_quad he] at h1
  exact le_of_mul_le_mul_right h1 (dot_self_pos hx)

section bounds
variable {M : Matrix (Fin n) (Fin n) ℝ} (hM : NonnegW M) {l : ℝ}
include hM

/-- vertex where `|x|` is maximal -/
theorem exists_abs_max {x : Fin n → ℝ} (hx : x ≠ 0) : ∃ i, 0 < |x i| ∧ ∀ j, |x j| ≤ |x i| := by
  obtain ⟨i0, hi0⟩ : ∃ i, x i ≠ 0 := by
    by_contra h; push Not at h; exact hx (funext h)
  obtain ⟨i, -, hi⟩ := Finset.exists_max_image Finset.univ (fun i => |x i|) ⟨i0, Finset.mem_univ _⟩
  exact ⟨i, lt_of_lt_of_le (abs_pos.2 hi0) (hi i0 (Finset.mem_univ _)), fun j => hi j (Finset.mem_univ _)⟩

theorem eig_le_gershgorin (h : IsEigenvalue (combLap M) l) : ∃ i, l ≤ 2 * wdeg M i := by
  obtain ⟨x, hx, he⟩ := h
  obtain ⟨i, hpos, hmax⟩ := exists_abs_max hM hx
  refine ⟨i, ?_⟩
  have h1 : l * x i = ∑ j, wsym M i j * (x i - x j) := by
    rw [← combLap_mulVec, he]; rfl
  have h2 : |l * x i| ≤ ∑ j, wsym M i j * (2 * |x i|) := by
    rw [h1]
    refine (Finset.abs_sum_le_sum_abs _ _).trans (Finset.sum_le_sum fun j _ => ?_)
    rw [abs_mul, abs_of_nonneg (wsym_nonneg hM i j)]
    refine mul_le_mul_of_nonneg_left ?_ (wsym_nonneg hM i j)
    have := abs_sub (x i) (x j)
    have := hmax j
    linarith
  rw [← Finset.sum_mul, sum_wsym, abs_mul] at h2
  have h3 : |l| ≤ 2 * wdeg M i := by
    have : |l| * |x i| ≤ (2 * wdeg M i) * |x i| := by linarith
    exact le_of_mul_le_mul_right this hpos
  exact (le_abs_self l).trans h3

theorem eig_le_merris (hd : ∀ i, wdeg M i ≠ 0) (h : IsEigenvalue (combLap M) l) :
    ∃ i, l ≤ wdeg M i + (∑ j, wsym M i j * wdeg M j) / wdeg M i := by
  have hdp : ∀ i, 0 < wdeg M i := fun i => lt_of_le_of_ne (wdeg_nonneg hM i) (Ne.symm (hd i))
  obtain ⟨x, hx, he⟩ := h
  let u : Fin n → ℝ := fun i => x i / wdeg M i
  have hxu : ∀ i, x i = wdeg M i * u i := fun i => by
    simp only [u]; field_simp [hd i]
  have hu : u ≠ 0 := by
    intro h0; apply hx; ext i; rw [hxu, h0]; simp
  obtain ⟨i, hpos, hmax⟩ := exists_abs_max hM hu
  refine ⟨i, ?_⟩
  have h1 : l * x i = wdeg M i * x i - ∑ j, wsym M i j * x j := by
    have : (combLap M *ᵥ x) i = l * x i := by rw [he]; rfl
    rw [← this, combLap_mulVec, ← sum_wsym, Finset.sum_mul, ← Finset.sum_sub_distrib]
    exact Finset.sum_congr rfl fun j _ => by ring
  have h2 : |l * x i| ≤ wdeg M i * (wdeg M i * |u i|) + (∑ j, wsym M i j * wdeg M j) * |u i| := by
    rw [h1]
    refine (abs_sub _ _).trans (add_le_add ?_ ?_)
    · rw [abs_mul, hxu, abs_mul, abs_of_pos (hdp i)]
    · rw [Finset.sum_mul]
      refine (Finset.abs_sum_le_sum_abs _ _).trans (Finset.sum_le_sum fun j _ => ?_)
      rw [hxu j, abs_mul, abs_mul, abs_of_nonneg (wsym_nonneg hM i j), abs_of_pos (hdp j), mul_assoc]
      exact mul_le_mul_of_nonneg_left (mul_le_mul_of_nonneg_left (hmax j) (hdp j).le) (wsym_nonneg hM i j)
  rw [abs_mul, hxu i, abs_mul, abs_of_pos (hdp i)] at h2
  have h3 : |l| * (wdeg M i * |u i|) ≤ (wdeg M i + (∑ j, wsym M i j * wdeg M j) / wdeg M i) * (wdeg M i * |u i|) := by
    have : (wdeg M i + (∑ j, wsym M i j * wdeg M j) / wdeg M i) * (wdeg M i * |u i|)
        = wdeg M i * (wdeg M i * |u i|) + (∑ j, wsym M i j * wdeg M j) * |u i| := by
      field_simp [hd i]
    rw [this]; exact h2
  have h4 := le_of_mul_le_mul_right h3 (mul_pos (hdp i) hpos)
  exact (le_abs_self l).trans h4

theorem eig_le_anderson_morley (h : IsEigenvalue (combLap M) l) (hl : 0 < l) :
    ∃ i j, wsym M i j ≠ 0 ∧ l ≤ wdeg M i + wdeg M j := by
  obtain ⟨x, hx, he⟩ := h
  have hrow : ∀ i, l * x i = ∑ j, wsym M i j * (x i - x j) := fun i => by
    rw [← combLap_mulVec, he]; rfl
  -- there is an edge with x i ≠ x j
  have hex : ∃ p : Fin n × Fin n, wsym M p.1 p.2 ≠ 0 ∧ x p.1 ≠ x p.2 := by
    by_contra hc
    push Not at hc
    apply hx
    ext i
    have : l * x i = 0 := by
      rw [hrow]
      refine Finset.sum_eq_zero fun j _ => ?_
      by_cases hw : wsym M i j = 0
      · rw [hw, zero_mul]
      · rw [hc (i, j) hw]; simp
    rcases mul_eq_zero.1 this with h | h
    · exact absurd h hl.ne'
    · exact h
  obtain ⟨p0, hp0, hp0x⟩ := hex
  let E : Finset (Fin n × Fin n) := Finset.univ.filter fun p => wsym M p.1 p.2 ≠ 0
  obtain ⟨p, hpE, hpmax⟩ := Finset.exists_max_image E (fun p => |x p.1 - x p.2|)
    ⟨p0, by simp [E, hp0]⟩
  have hpw : wsym M p.1 p.2 ≠ 0 := by simpa [E] using hpE
  have hpos : 0 < |x p.1 - x p.2| :=
    lt_of_lt_of_le (abs_pos.2 (sub_ne_zero.2 hp0x)) (hpmax p0 (by simp [E, hp0]))
  refine ⟨p.1, p.2, hpw, ?_⟩
  have hb : ∀ i, |∑ j, wsym M i j * (x i - x j)| ≤ wdeg M i * |x p.1 - x p.2| := by
    intro i
    rw [← sum_wsym, Finset.sum_mul]
    refine (Finset.abs_sum_le_sum_abs _ _).trans (Finset.sum_le_sum fun j _ => ?_)
    rw [abs_mul, abs_of_nonneg (wsym_nonneg hM i j)]
    by_cases hw : wsym M i j = 0
    · rw [hw]; simp
    · exact mul_le_mul_of_nonneg_left (hpmax (i, j) (by simp [E, hw])) (wsym_nonneg hM i j)
  have h1 : l * |x p.1 - x p.2| ≤ (wdeg M p.1 + wdeg M p.2) * |x p.1 - x p.2| := by
    have : l * |x p.1 - x p.2| = |l * x p.1 - l * x p.2| := by
      rw [← mul_sub, abs_mul, abs_of_pos hl]
    rw [this, add_mul]
    refine (abs_sub _ _).trans (add_le_add ?_ ?_)
    · rw [hrow]; exact hb _
    · rw [hrow]; exact hb _
  exact le_of_mul_le_mul_right h1 hpos

theorem eig_le_complete {wmax : ℝ} (hw : ∀ i j, M i j ≤ wmax) (h : IsEigenvalue (combLap M) l) (hl : 0 < l) :
    l ≤ n * wmax := by
  obtain ⟨x, hx, he⟩ := h
  have hsum : ∑ i, x i = 0 := by
    have h1 : ∑ i, (combLap M *ᵥ x) i = 0 := by
      simp only [combLap_mulVec]
      have h2 : ∑ i, ∑ j, wsym M i j * (x i - x j) = ∑ i, ∑ j, wsym M i j * (x j - x i) := by
        rw [sum_swap]
        exact Finset.sum_congr rfl fun i _ => Finset.sum_congr rfl fun j _ => by rw [wsym_comm]
      have h3 : ∑ i, ∑ j, wsym M i j * (x j - x i) = - ∑ i, ∑ j, wsym M i j * (x i - x j) := by
        rw [← Finset.sum_neg_distrib]
        refine Finset.sum_congr rfl fun i _ => ?_
        rw [← Finset.sum_neg_distrib]
        exact Finset.sum_congr rfl fun j _ => by ring
      linarith
    rw [he] at h1
    simp only [Pi.smul_apply, smul_eq_mul, ← Finset.mul_sum] at h1
    rcases mul_eq_zero.1 h1 with h | h
    · exact absurd h hl.ne'
    · exact h
  have hq := isEigenvalue_quad he
  rw [combLap_quad] at hq
  have hle : dirichlet M x ≤ n * wmax * (x ⬝ᵥ x) := by
    have h1 : dirichlet M x ≤ 1 / 2 * ∑ i, ∑ j, wmax * (x i - x j) ^ 2 := by
      unfold dirichlet
      refine mul_le_mul_of_nonneg_left ?_ (by norm_num)
      exact Finset.sum_le_sum fun i _ => Finset.sum_le_sum fun j _ =>
        mul_le_mul_of_nonneg_right (hw i j) (sq_nonneg _)
    have h2 : ∑ i : Fin n, ∑ j : Fin n, wmax * (x i - x j) ^ 2 = 2 * (n * wmax * (x ⬝ᵥ x)) := by
      have : ∀ i, ∑ j : Fin n, wmax * (x i - x j) ^ 2
          = wmax * (n * (x i * x i) - 2 * x i * ∑ j, x j + ∑ j, x j * x j) := by
        intro i
        rw [← Finset.mul_sum]
        congr 1
        have : ∀ j, (x i - x j) ^ 2 = x i * x i - 2 * x i * x j + x j * x j := fun j => by ring
        simp only [this, Finset.sum_add_distrib, Finset.sum_sub_distrib, ← Finset.mul_sum,
          Finset.sum_const, Finset.card_univ, Fintype.card_fin, nsmul_eq_mul]
        ring
      simp only [this, hsum]
      rw [← Finset.mul_sum, Finset.sum_add_distrib]
      simp only [mul_zero, sub_zero, Finset.sum_const, Finset.card_univ, Fintype.card_fin, nsmul_eq_mul,
        ← Finset.mul_sum, dotProduct]
      ring
    rw [h2] at h1; linarith
  rw [hq] at hle
  exact le_of_mul_le_mul_right hle (dot_self_pos hx)

omit hM in
theorem nscale_quad_le (hM : NonnegW M) (x : Fin n → ℝ) :
    x ⬝ᵥ ((Matrix.of fun i j => nscale M i * combLap M i j * nscale M j) *ᵥ x) ≤ 2 * (x ⬝ᵥ x) := by
  rw [scaled_quad, combLap_quad, dirichlet_wsym]
  set y : Fin n → ℝ := fun j => nscale M j * x j with hy
  have h1 : ∑ i, ∑ j, wsym M i j * (y i - y j) ^ 2 ≤ ∑ i, ∑ j, wsym M i j * (2 * (y i * y i) + 2 * (y j * y j)) :=
    Finset.sum_le_sum fun i _ => Finset.sum_le_sum fun j _ =>
      mul_le_mul_of_nonneg_left (by nlinarith [sq_nonneg (y i + y j)]) (wsym_nonneg hM i j)
  have h2 : ∑ i, ∑ j, wsym M i j * (2 * (y i * y i) + 2 * (y j * y j)) = 4 * ∑ i, wdeg M i * (y i * y i) := by
    have e1 : ∑ i, ∑ j, wsym M i j * (y i * y i) = ∑ i, wdeg M i * (y i * y i) :=
      Finset.sum_congr rfl fun i _ => by rw [← Finset.sum_mul, sum_wsym]
    have e2 : ∑ i, ∑ j, wsym M i j * (y j * y j) = ∑ i, wdeg M i * (y i * y i) := by
      rw [sum_swap, ← e1]
      exact Finset.sum_congr rfl fun i _ => Finset.sum_congr rfl fun j _ => by rw [wsym_comm]
    have e3 : ∀ i j, wsym M i j * (2 * (y i * y i) + 2 * (y j * y j))
        = 2 * (wsym M i j * (y i * y i)) + 2 * (wsym M i j * (y j * y j)) := fun i j => by ring
    simp only [e3, Finset.sum_add_distrib, ← Finset.mul_sum, e1, e2]
    ring
  have h3 : ∑ i, wdeg M i * (y i * y i) ≤ x ⬝ᵥ x := by
    refine Finset.sum_le_sum fun i _ => ?_
    have := nscale_sq M hM i
    have e : wdeg M i * (y i * y i) = (nscale M i * nscale M i * wdeg M i) * (x i * x i) := by
      simp only [hy]; ring
    rw [e, this]
    split
    · rw [zero_mul]; exact mul_self_nonneg _
    · rw [one_mul]
  linarith

end bounds

end PyGSP
