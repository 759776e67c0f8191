import Verif.Spec.Bipartite
import Verif.Spec.Potential
import Verif.Lemmas.Potential
import Verif.Props.Components

/-!
# C109: the value of the bounds on the frequencies, and the graphs that attain them
-/

namespace PyGSP

open Matrix Spec GState

variable {n : ℕ} {M : Matrix (Fin n) (Fin n) ℝ}

/-! ### quadratic forms -/

theorem signless_quad (M : Matrix (Fin n) (Fin n) ℝ) (x : Fin n → ℝ) :
    dirichlet M x + 1 / 2 * ∑ i, ∑ j, wsym M i j * (x i + x j) ^ 2 = 2 * ∑ i, wdeg M i * x i ^ 2 := by
  rw [dirichlet_wsym, ← mul_add, ← Finset.sum_add_distrib]
  have h1 : ∀ i, (∑ j, wsym M i j * (x i - x j) ^ 2) + ∑ j, wsym M i j * (x i + x j) ^ 2 =
      2 * (wdeg M i * x i ^ 2) + 2 * ∑ j, wsym M i j * x j ^ 2 := by
    intro i
    rw [← Finset.sum_add_distrib, ← sum_wsym, Finset.sum_mul, Finset.mul_sum, Finset.mul_sum, ← Finset.sum_add_distrib]
    exact Finset.sum_congr rfl fun j _ => by ring
  have h2 : ∑ i, ∑ j, wsym M i j * x j ^ 2 = ∑ i, wdeg M i * x i ^ 2 := by
    rw [Finset.sum_comm]
    refine Finset.sum_congr rfl fun j _ => ?_
    rw [← Finset.sum_mul, ← sum_wsym]
    congr 1
    exact Finset.sum_congr rfl fun i _ => wsym_comm M i j
  simp only [h1, Finset.sum_add_distrib, ← Finset.mul_sum, h2]
  ring

theorem wsym_ne_zero (hM : NonnegW M) {i j : Fin n} : wsym M i j ≠ 0 ↔ M i j ≠ 0 ∨ M j i ≠ 0 := by
  rw [← wsym_pos_iff hM]
  exact ⟨fun h => lt_of_le_of_ne (wsym_nonneg hM i j) h.symm, fun h => h.ne'⟩

/-- A non-negative double sum that vanishes. -/
theorem signless_zero (hM : NonnegW M) {x : Fin n → ℝ} (h : ∑ i, ∑ j, wsym M i j * (x i + x j) ^ 2 = 0) {i j : Fin n} (hij : wsym M i j ≠ 0) : x j = -x i := by
  have h0 : ∀ i j, 0 ≤ wsym M i j * (x i + x j) ^ 2 := fun i j => mul_nonneg (wsym_nonneg hM i j) (sq_nonneg _)
  have h1 := (Finset.sum_eq_zero_iff_of_nonneg fun i _ => Finset.sum_nonneg fun j _ => h0 i j).1 h i (Finset.mem_univ i)
  have h2 := (Finset.sum_eq_zero_iff_of_nonneg fun j _ => h0 i j).1 h1 j (Finset.mem_univ j)
  have h3 := pow_eq_zero_iff (two_ne_zero) |>.1 ((mul_eq_zero.1 h2).resolve_left hij)
  linarith

theorem dot_self_sq (x : Fin n → ℝ) : x ⬝ᵥ x = ∑ i, x i ^ 2 := Finset.sum_congr rfl fun i _ => (sq _).symm

/-- The colouring by signs. -/
theorem twoColored_sign (hM : NonnegW M) {x : Fin n → ℝ} (h : ∑ i, ∑ j, wsym M i j * (x i + x j) ^ 2 = 0) :
    TwoColored M {i | x i ≠ 0} fun i => decide (0 < x i) := by
  intro i hi j hij
  have := signless_zero hM h ((wsym_ne_zero hM).2 hij)
  simp only [Set.mem_setOf_eq] at hi ⊢
  refine ⟨by rw [this]; exact neg_ne_zero.2 hi, ?_⟩
  rw [this]
  intro hc
  have hc := decide_eq_decide.1 hc
  rcases lt_trichotomy (x i) 0 with h0 | h0 | h0
  · have := hc.2 (by linarith)
    linarith
  · exact hi h0
  · have := hc.1 h0
    linarith

open Classical in
/-- The alternating vector of a two-coloured set. -/
noncomputable def alternating (S : Set (Fin n)) (c : Fin n → Bool) (i : Fin n) : ℝ := if i ∈ S then (if c i then 1 else -1) else 0

theorem alternating_ne {S : Set (Fin n)} {c : Fin n → Bool} (hS : S.Nonempty) : ∃ i, alternating S c i ≠ 0 := by
  obtain ⟨i, hi⟩ := hS
  refine ⟨i, ?_⟩
  unfold alternating
  rw [if_pos hi]
  split <;> norm_num

theorem alternating_neg (hM : NonnegW M) {S : Set (Fin n)} {c : Fin n → Bool} (h : TwoColored M S c) {i j : Fin n} (hij : wsym M i j ≠ 0) :
    alternating S c j = -alternating S c i := by
  have h' := (wsym_ne_zero hM).1 hij
  unfold alternating
  by_cases hi : i ∈ S
  · obtain ⟨h1, h2⟩ := h i hi j h'
    rw [if_pos hi, if_pos h1]
    cases hci : c i <;> cases hcj : c j <;> simp_all
  · by_cases hj : j ∈ S
    · exact absurd (h j hj i h'.symm).1 hi
    · rw [if_neg hi, if_neg hj, neg_zero]

theorem combLap_alternating (hM : NonnegW M) {S : Set (Fin n)} {c : Fin n → Bool} (h : TwoColored M S c) (i : Fin n) :
    (combLap M *ᵥ alternating S c) i = 2 * wdeg M i * alternating S c i := by
  rw [combLap_mulVec, ← sum_wsym, Finset.mul_sum, Finset.sum_mul]
  refine Finset.sum_congr rfl fun j _ => ?_
  by_cases hij : wsym M i j = 0
  · rw [hij]; ring
  · rw [alternating_neg hM h hij]; ring

/-! ### combinatorial: twice the largest degree -/

/-- **C109** The bound `2 max(dw)` is attained exactly by the graphs that have a component, or a union of components, which is regular of the largest degree and
bipartite. -/
theorem C109_regular_bipartite (W : Sp n n ℝ) (hW : NonnegW W.dense) {L : Matrix (Fin n) (Fin n) ℝ} (hL : laplacian W .combinatorial = .ok L) {d : ℝ}
    (hd : IsGreatest {t | ∃ i, t = wdeg W.dense i} d) :
    IsEigenvalue L (2 * d) ↔ ∃ S c, S.Nonempty ∧ TwoColored W.dense S c ∧ ∀ i ∈ S, wdeg W.dense i = d := by
  obtain rfl : combLap W.dense = L := Except.ok.inj ((laplacian_comb W).symm.trans hL)
  constructor
  · rintro ⟨x, hx, he⟩
    have h1 := isEigenvalue_quad he
    rw [combLap_quad, dot_self_sq] at h1
    have h2 := signless_quad W.dense x
    have h3 : ∑ i, (d - wdeg W.dense i) * x i ^ 2 + 1 / 4 * ∑ i, ∑ j, wsym W.dense i j * (x i + x j) ^ 2 = 0 := by
      simp only [sub_mul, Finset.sum_sub_distrib, ← Finset.mul_sum]
      linarith
    have h4 : ∀ i, 0 ≤ (d - wdeg W.dense i) * x i ^ 2 := fun i => mul_nonneg (sub_nonneg.2 (hd.2 ⟨i, rfl⟩)) (sq_nonneg _)
    have h5 : 0 ≤ ∑ i, ∑ j, wsym W.dense i j * (x i + x j) ^ 2 :=
      Finset.sum_nonneg fun i _ => Finset.sum_nonneg fun j _ => mul_nonneg (wsym_nonneg hW i j) (sq_nonneg _)
    have h6 : 0 ≤ ∑ i, (d - wdeg W.dense i) * x i ^ 2 := Finset.sum_nonneg fun i _ => h4 i
    have h7 : ∑ i, (d - wdeg W.dense i) * x i ^ 2 = 0 := by linarith
    have h8 : ∑ i, ∑ j, wsym W.dense i j * (x i + x j) ^ 2 = 0 := by linarith
    refine ⟨{i | x i ≠ 0}, _, ?_, twoColored_sign hW h8, fun i hi => ?_⟩
    · by_contra hc
      refine hx (funext fun i => ?_)
      by_contra hi
      exact hc ⟨i, hi⟩
    · have := (Finset.sum_eq_zero_iff_of_nonneg fun i _ => h4 i).1 h7 i (Finset.mem_univ i)
      have := (mul_eq_zero.1 this).resolve_right (pow_ne_zero 2 hi)
      linarith
  · rintro ⟨S, c, hS, hc, hr⟩
    obtain ⟨i0, hi0⟩ := alternating_ne (c := c) hS
    refine ⟨alternating S c, fun h => hi0 (congrFun h i0), ?_⟩
    funext i
    rw [combLap_alternating hW hc, Pi.smul_apply, smul_eq_mul]
    by_cases hi : i ∈ S
    · rw [hr i hi]
    · unfold alternating
      rw [if_neg hi, mul_zero, mul_zero]

/-! ### combinatorial: the number of vertices times the largest weight -/

theorem complete_quad (M : Matrix (Fin n) (Fin n) ℝ) (w : ℝ) (x : Fin n → ℝ) :
    dirichlet M x + 1 / 2 * ∑ i, ∑ j, (w - wsym M i j) * (x i - x j) ^ 2 = w * (n * ∑ i, x i ^ 2 - (∑ i, x i) ^ 2) := by
  rw [dirichlet_wsym, ← mul_add, ← Finset.sum_add_distrib]
  have h1 : ∀ i, (∑ j, wsym M i j * (x i - x j) ^ 2) + ∑ j, (w - wsym M i j) * (x i - x j) ^ 2 =
      w * (n * x i ^ 2 - 2 * (x i * ∑ j, x j) + ∑ j, x j ^ 2) := by
    intro i
    rw [← Finset.sum_add_distrib]
    have : ∀ j, wsym M i j * (x i - x j) ^ 2 + (w - wsym M i j) * (x i - x j) ^ 2 = w * (x i ^ 2 - 2 * (x i * x j) + x j ^ 2) := fun j => by ring
    simp only [this, ← Finset.mul_sum, Finset.sum_add_distrib, Finset.sum_sub_distrib, Finset.sum_const, Finset.card_univ, Fintype.card_fin, nsmul_eq_mul]
  simp only [h1, ← Finset.mul_sum, Finset.sum_add_distrib, Finset.sum_sub_distrib, Finset.sum_const, Finset.card_univ, Fintype.card_fin, nsmul_eq_mul,
    ← Finset.sum_mul]
  ring

theorem wsym_le {w : ℝ} (hw : ∀ i j, M i j ≤ w) (i j : Fin n) : wsym M i j ≤ w := by
  unfold wsym
  linarith [hw i j, hw j i]

open Classical in
/-- **C109** The bound `N max(W)` is attained exactly by the graphs whose vertices split in two parts such that all the weights between the parts are the largest
weight (as in full graphs). -/
theorem C109_join (hn : 2 ≤ n) (W : Sp n n ℝ) (hW : NonnegW W.dense) {L : Matrix (Fin n) (Fin n) ℝ} (hL : laplacian W .combinatorial = .ok L) {w : ℝ}
    (hw : IsGreatest {t | ∃ i j, t = W.dense i j} w) :
    IsEigenvalue L (n * w) ↔ ∃ S : Finset (Fin n), S.Nonempty ∧ Sᶜ.Nonempty ∧ ∀ i ∈ S, ∀ j ∉ S, wsym W.dense i j = w := by
  obtain rfl : combLap W.dense = L := Except.ok.inj ((laplacian_comb W).symm.trans hL)
  have hle : ∀ i j, wsym W.dense i j ≤ w := wsym_le fun i j => hw.2 ⟨i, j, rfl⟩
  have hw0 : 0 ≤ w := by
    obtain ⟨i, j, h⟩ := hw.1
    rw [h]
    exact hW i j
  constructor
  · rintro ⟨x, hx, he⟩
    have h1 := isEigenvalue_quad he
    rw [combLap_quad, dot_self_sq] at h1
    have h2 := complete_quad W.dense w x
    have h0 : ∀ i j, 0 ≤ (w - wsym W.dense i j) * (x i - x j) ^ 2 := fun i j => mul_nonneg (sub_nonneg.2 (hle i j)) (sq_nonneg _)
    have h3 : 0 ≤ ∑ i, ∑ j, (w - wsym W.dense i j) * (x i - x j) ^ 2 := Finset.sum_nonneg fun i _ => Finset.sum_nonneg fun j _ => h0 i j
    have h4 : 0 ≤ w * (∑ i, x i) ^ 2 := mul_nonneg hw0 (sq_nonneg _)
    have h5 : ∑ i, ∑ j, (w - wsym W.dense i j) * (x i - x j) ^ 2 = 0 := by nlinarith
    have h6 : w * (∑ i, x i) ^ 2 = 0 := by nlinarith
    have key : ∀ i j, x i ≠ x j → wsym W.dense i j = w := by
      intro i j hij
      have h7 := (Finset.sum_eq_zero_iff_of_nonneg fun i _ => Finset.sum_nonneg fun j _ => h0 i j).1 h5 i (Finset.mem_univ i)
      have h8 := (Finset.sum_eq_zero_iff_of_nonneg fun j _ => h0 i j).1 h7 j (Finset.mem_univ j)
      have := (mul_eq_zero.1 h8).resolve_right (pow_ne_zero 2 (sub_ne_zero.2 hij))
      linarith
    by_cases hconst : ∀ j, x j = x ⟨0, by omega⟩
    · -- the weights vanish
      have hs : ∑ i, x i = n * x ⟨0, by omega⟩ := by
        rw [Finset.sum_congr rfl fun j _ => hconst j]
        simp
      have hx0 : x ⟨0, by omega⟩ ≠ 0 := fun h => hx (funext fun j => by rw [hconst j, h]; rfl)
      have hwz : w = 0 := by
        rcases mul_eq_zero.1 h6 with h | h
        · exact h
        · have h := pow_eq_zero_iff (two_ne_zero) |>.1 h
          rw [hs] at h
          rcases mul_eq_zero.1 h with h | h
          · exact absurd (Nat.cast_eq_zero.1 h) (by omega)
          · exact absurd h hx0
      refine ⟨{(⟨0, by omega⟩ : Fin n)}, by simp, ⟨(⟨1, by omega⟩ : Fin n), by simp⟩, fun i _ j _ => ?_⟩
      rw [hwz]
      exact le_antisymm (hwz ▸ hle i j) (wsym_nonneg hW i j)
    · push Not at hconst
      obtain ⟨j0, hj0⟩ := hconst
      refine ⟨Finset.univ.filter fun i => x i = x ⟨0, by omega⟩, ⟨⟨0, by omega⟩, by simp⟩, ⟨j0, by simp [hj0]⟩, fun i hi j hj => key i j ?_⟩
      simp only [Finset.mem_filter, Finset.mem_univ, true_and] at hi hj
      rw [hi]
      exact fun h => hj h.symm
  · rintro ⟨S, ⟨i0, hi0⟩, ⟨j0, hj0⟩, h⟩
    have hj0' : j0 ∉ S := Finset.mem_compl.1 hj0
    have hcard : (S.card : ℝ) + Sᶜ.card = n := by
      rw [← Nat.cast_add, Finset.card_add_card_compl, Fintype.card_fin]
    refine ⟨fun i => if i ∈ S then (Sᶜ.card : ℝ) else -S.card, fun hz => ?_, ?_⟩
    · have := congrFun hz i0
      simp only [if_pos hi0, Pi.zero_apply, Nat.cast_eq_zero, Finset.card_eq_zero] at this
      rw [this] at hj0
      simp at hj0
    · funext i
      rw [combLap_mulVec, Pi.smul_apply, smul_eq_mul]
      by_cases hi : i ∈ S
      · have : ∀ j, wsym W.dense i j * ((if i ∈ S then (Sᶜ.card : ℝ) else -S.card) - if j ∈ S then (Sᶜ.card : ℝ) else -S.card) =
            if j ∈ S then 0 else w * n := by
          intro j
          by_cases hj : j ∈ S
          · simp [hi, hj]
          · rw [if_pos hi, if_neg hj, if_neg hj, h i hi j hj, ← hcard]; ring
        rw [Finset.sum_congr rfl fun j _ => this j, if_pos hi]
        rw [Finset.sum_ite, Finset.sum_const_zero, zero_add, Finset.sum_const, nsmul_eq_mul]
        have : (Finset.univ.filter fun j => j ∉ S) = Sᶜ := by ext; simp
        rw [this]
        ring
      · have : ∀ j, wsym W.dense i j * ((if i ∈ S then (Sᶜ.card : ℝ) else -S.card) - if j ∈ S then (Sᶜ.card : ℝ) else -S.card) =
            if j ∈ S then -(w * n) else 0 := by
          intro j
          by_cases hj : j ∈ S
          · rw [if_neg hi, if_pos hj, if_pos hj, wsym_comm, h j hj i hi, ← hcard]; ring
          · simp [hi, hj]
        rw [Finset.sum_congr rfl fun j _ => this j, if_neg hi]
        rw [Finset.sum_ite, Finset.sum_const_zero, add_zero, Finset.sum_const, nsmul_eq_mul]
        have : (Finset.univ.filter fun j => j ∈ S) = S := by ext; simp
        rw [this]
        ring

/-! ### normalized -/

theorem nscale_sq_pos (hM : NonnegW M) {i : Fin n} (hi : wdeg M i ≠ 0) : nscale M i ^ 2 * wdeg M i = 1 := by
  unfold nscale
  rw [if_neg hi, one_div, inv_pow, Real.sq_sqrt (wdeg_nonneg hM i), inv_mul_cancel₀ hi]

/-- **C109** The bound 2 of the normalized Laplacian is attained exactly by the graphs that have a component with an edge, or a union of them, which is bipartite. -/
theorem C109_normalized (W : Sp n n ℝ) (hW : NonnegW W.dense) {L : Matrix (Fin n) (Fin n) ℝ} (hL : laplacian W .normalized = .ok L) :
    IsEigenvalue L 2 ↔ ∃ S c, S.Nonempty ∧ TwoColored W.dense S c ∧ ∀ i ∈ S, wdeg W.dense i ≠ 0 := by
  have e := Except.ok.inj ((laplacian_norm W hW).symm.trans hL)
  rw [← e]
  clear e
  constructor
  · rintro ⟨x, hx, he⟩
    have h1 := isEigenvalue_quad he
    rw [scaled_quad, combLap_quad, dot_self_sq] at h1
    have h2 := signless_quad W.dense fun j => nscale W.dense j * x j
    have hx0 : ∀ i, wdeg W.dense i = 0 → x i = 0 := by
      intro i hi
      have := congrFun he i
      rw [scaled_mulVec, Pi.smul_apply, smul_eq_mul] at this
      unfold nscale at this
      rw [if_pos hi, zero_mul] at this
      linarith
    have h3 : ∑ i, wdeg W.dense i * (nscale W.dense i * x i) ^ 2 = ∑ i, x i ^ 2 := by
      refine Finset.sum_congr rfl fun i _ => ?_
      by_cases hi : wdeg W.dense i = 0
      · rw [hi, hx0 i hi]; ring
      · rw [mul_pow, ← mul_assoc, mul_comm (wdeg W.dense i), nscale_sq_pos hW hi, one_mul]
    have h4 : ∑ i, ∑ j, wsym W.dense i j * (nscale W.dense i * x i + nscale W.dense j * x j) ^ 2 = 0 := by linarith
    refine ⟨{i | nscale W.dense i * x i ≠ 0}, _, ?_, twoColored_sign hW h4, fun i hi hd => ?_⟩
    · by_contra hc
      refine hx (funext fun i => ?_)
      by_cases hd : wdeg W.dense i = 0
      · exact hx0 i hd
      · by_contra hi
        refine hc ⟨i, mul_ne_zero (fun h0 => ?_) hi⟩
        have := nscale_sq_pos hW hd
        rw [h0] at this
        simp at this
    · refine hi ?_
      rw [hx0 i hd, mul_zero]
  · rintro ⟨S, c, hS, hc, hd⟩
    obtain ⟨i0, hi0⟩ := alternating_ne (c := c) hS
    have hi0S : i0 ∈ S := by
      by_contra hn
      exact hi0 (by unfold alternating; rw [if_neg hn])
    have hsq : ∀ i, i ∈ S → Real.sqrt (wdeg W.dense i) ≠ 0 := fun i hi => by
      rw [Real.sqrt_ne_zero (wdeg_nonneg hW i)]
      exact hd i hi
    refine ⟨fun i => Real.sqrt (wdeg W.dense i) * alternating S c i, fun h => ?_, ?_⟩
    · have := congrFun h i0
      exact mul_ne_zero (hsq i0 hi0S) hi0 this
    · funext i
      have hy : (fun j => nscale W.dense j * (Real.sqrt (wdeg W.dense j) * alternating S c j)) = alternating S c := by
        funext j
        by_cases hj : j ∈ S
        · unfold nscale
          rw [if_neg (hd j hj), ← mul_assoc, one_div, inv_mul_cancel₀ (hsq j hj), one_mul]
        · have : alternating S c j = 0 := by unfold alternating; rw [if_neg hj]
          rw [this, mul_zero, mul_zero]
      rw [scaled_mulVec, hy, combLap_alternating hW hc, Pi.smul_apply, smul_eq_mul]
      by_cases hi : i ∈ S
      · have h1 : nscale W.dense i * wdeg W.dense i = Real.sqrt (wdeg W.dense i) := by
          unfold nscale
          rw [if_neg (hd i hi), one_div, inv_mul_eq_div, Real.div_sqrt]
        rw [← h1]; ring
      · have : alternating S c i = 0 := by unfold alternating; rw [if_neg hi]
        rw [this]; ring

/-- **C109** For a connected graph with at least two vertices, the normalized Laplacian has the eigenvalue 2 if and only if the graph is bipartite, as the comment in
the code says. -/
theorem C109_bipartite (hn : 2 ≤ n) (W : Sp n n ℝ) (hW : NonnegW W.dense) (hcon : Connected W.dense) {L : Matrix (Fin n) (Fin n) ℝ}
    (hL : laplacian W .normalized = .ok L) : IsEigenvalue L 2 ↔ Bipartite W.dense := by
  rw [C109_normalized W hW hL]
  constructor
  · rintro ⟨S, c, ⟨i0, hi0⟩, hc, -⟩
    have hall : ∀ j, j ∈ S := by
      intro j
      have := hcon i0 j
      induction this with
      | refl => exact hi0
      | tail _ h ih => exact (hc _ ih _ h).1
    exact ⟨c, fun i j hij => (hc i (hall i) j (.inl hij)).2⟩
  · rintro ⟨c, hc⟩
    refine ⟨Set.univ, c, ⟨⟨0, by omega⟩, trivial⟩, fun i _ j hij => ⟨trivial, ?_⟩, fun i _ hi => ?_⟩
    · rcases hij with h | h
      · exact hc i j h
      · exact (hc j i h).symm
    · have hz := wsym_eq_zero_of_wdeg hW hi
      obtain ⟨j, hj⟩ : ∃ j : Fin n, i ≠ j := by
        by_cases h0 : i.1 = 0
        · exact ⟨⟨1, by omega⟩, fun h => by rw [h] at h0; simp at h0⟩
        · exact ⟨⟨0, by omega⟩, fun h => h0 (by rw [h])⟩
      rcases Relation.ReflTransGen.cases_head (hcon i j) with h | ⟨k, hk, -⟩
      · exact hj h
      · exact ((wsym_ne_zero hW).2 hk) (hz k)

/-! ### the value of the bound -/

/-- **C109** The value of the upper bound: the least of `N max(W)`, `2 max(dw)`, the largest `dw[s] + dw[t]` over the edges (when there are edges) and the largest
`dw[i] + (W dw)[i] / dw[i]` (when no degree vanishes). -/
theorem C109_value (g : Graph n ℝ) (hg : g.Built) (hlt : g.lapType = .combinatorial) (hW : NonnegW g.W.dense) (hn : 0 < n) :
    ∃ B w d, g.upperBound = .ok (.fin B) ∧ IsGreatest {t | ∃ i j, t = g.W.dense i j} w ∧ IsGreatest {t | ∃ i, t = wdeg g.W.dense i} d ∧
      IsLeast {b | b = n * w ∨ b = 2 * d ∨ IsGreatest {t | ∃ i j, g.W.dense i j ≠ 0 ∧ t = wdeg g.W.dense i + wdeg g.W.dense j} b ∨
        (∀ i, wdeg g.W.dense i ≠ 0) ∧ IsGreatest {t | ∃ i, t = wdeg g.W.dense i + (∑ j, wsym g.W.dense i j * wdeg g.W.dense j) / wdeg g.W.dense i} b} B := by
  have hV : List.finRange n ≠ [] := by
    intro h; have := congrArg List.length h; simp at this; omega
  obtain ⟨w, hw1, hw2, hw3⟩ := npMax_fin ((List.finRange n).flatMap fun i => (List.finRange n).map fun j => g.W.dense i j)
    (by
      intro h
      rw [List.flatMap_eq_nil_iff] at h
      have := h ⟨0, hn⟩ (List.mem_finRange _)
      simp at this; omega)
  rw [List.map_flatMap] at hw1
  simp only [List.map_map, Function.comp_def] at hw1
  have hwG : IsGreatest {t | ∃ i j, t = g.W.dense i j} w := by
    constructor
    · obtain ⟨i, -, hi⟩ := List.mem_flatMap.1 hw2
      obtain ⟨j, -, hj⟩ := List.mem_map.1 hi
      exact ⟨i, j, hj.symm⟩
    · rintro t ⟨i, j, rfl⟩
      exact hw3 _ (List.mem_flatMap.2 ⟨i, List.mem_finRange _, List.mem_map.2 ⟨j, List.mem_finRange _, rfl⟩⟩)
  obtain ⟨d, hd1, hd2, hd3⟩ := npMax_fin ((List.finRange n).map fun i => dw g.W i) (by simpa using hV)
  rw [List.map_map] at hd1
  have hdG : IsGreatest {t | ∃ i, t = wdeg g.W.dense i} d := by
    constructor
    · obtain ⟨i, -, hi⟩ := List.mem_map.1 hd2
      exact ⟨i, by rw [← dw_eq]; exact hi.symm⟩
    · rintro t ⟨i, rfl⟩
      rw [← dw_eq]
      exact hd3 _ (List.mem_map.2 ⟨i, List.mem_finRange _, rfl⟩)
  obtain ⟨es, hes1, hes2, -, hes4⟩ := C04_edge_list g hg
  have hb3 : ∃ b3, g.edgeBounds = .ok b3 ∧ (∀ x, x ∈ b3 ↔ ∃ r, x = .fin r ∧
      IsGreatest {t | ∃ i j, g.W.dense i j ≠ 0 ∧ t = wdeg g.W.dense i + wdeg g.W.dense j} r) := by
    have hset : {t | ∃ i j, g.W.dense i j ≠ 0 ∧ t = wdeg g.W.dense i + wdeg g.W.dense j} =
        {t | t ∈ es.map fun e => dw g.W e.1 + dw g.W e.2.1} := by
      ext t
      simp only [Set.mem_setOf_eq, List.mem_map, dw_eq]
      constructor
      · rintro ⟨a, b, hab, rfl⟩
        by_cases hu : Undirected g.W.dense
        · rcases le_total a b with hle | hle
          · exact ⟨(a, b, g.W.dense a b), (hes4 a b _).2 ⟨rfl, hab, fun _ => hle⟩, rfl⟩
          · exact ⟨(b, a, g.W.dense b a), (hes4 b a _).2 ⟨rfl, by rw [hu]; exact hab, fun _ => hle⟩, add_comm _ _⟩
        · exact ⟨(a, b, g.W.dense a b), (hes4 a b _).2 ⟨rfl, hab, fun h => absurd h hu⟩, rfl⟩
      · rintro ⟨⟨a, b, v⟩, he, rfl⟩
        obtain ⟨h1, h2, -⟩ := (hes4 a b v).1 he
        exact ⟨a, b, h1 ▸ h2, rfl⟩
    rw [hset]
    unfold Graph.edgeBounds
    split
    · rename_i hpos
      obtain ⟨r, hr1, hr2, hr3⟩ := npMax_fin (es.map fun e => dw g.W e.1 + dw g.W e.2.1)
        (by intro h; rw [List.map_eq_nil_iff] at h; rw [h] at hes2; simp at hes2; omega)
      rw [List.map_map] at hr1
      refine ⟨[.fin r], ?_, ?_⟩
      · rw [hes1]
        show (npMax _ >>= _) = _
        rw [show (es.map fun e => PyNum.fin (dw g.W e.1 + dw g.W e.2.1)) = _ from rfl]
        erw [hr1]
        rfl
      · intro x
        rw [List.mem_singleton]
        have hG : IsGreatest {t | t ∈ es.map fun e => dw g.W e.1 + dw g.W e.2.1} r := ⟨hr2, fun t ht => hr3 t ht⟩
        constructor
        · rintro rfl
          exact ⟨r, rfl, hG⟩
        · rintro ⟨r', rfl, h'⟩
          rw [h'.unique hG]
    · rename_i hpos
      refine ⟨[], rfl, fun x => ⟨fun h => absurd h (by simp), ?_⟩⟩
      rintro ⟨r, -, h, -⟩
      have : es = [] := List.length_eq_zero_iff.1 (by omega)
      rw [this] at h
      simp at h
  obtain ⟨b3, hb31, hb32⟩ := hb3
  have hb4 : ∃ b4, npMax ((List.finRange n).map fun i => PyNum.fin (dw g.W i) +
        npDiv (∑ j, lapWeights g.W i j * dw g.W j) (dw g.W i)) = .ok b4 ∧ (b4 = .nan ∨ ∃ r, b4 = .fin r) ∧
      (∀ r, b4 = .fin r ↔ (∀ i, wdeg g.W.dense i ≠ 0) ∧
        IsGreatest {t | ∃ i, t = wdeg g.W.dense i + (∑ j, wsym g.W.dense i j * wdeg g.W.dense j) / wdeg g.W.dense i} r) := by
    by_cases hiso : ∃ i, wdeg g.W.dense i = 0
    · obtain ⟨i, hi⟩ := hiso
      refine ⟨.nan, npMax_nan _ ?_, .inl rfl, fun r => ⟨fun h => by simp at h, fun h => absurd hi (h.1 i)⟩⟩
      rw [List.mem_map]
      refine ⟨i, List.mem_finRange _, ?_⟩
      have h1 : ∑ j, lapWeights g.W i j * dw g.W j = 0 := by
        refine Finset.sum_eq_zero fun j _ => ?_
        rw [lapWeights_apply, wsym_eq_zero_of_wdeg hW hi, zero_mul]
      rw [h1, dw_eq, hi]
      unfold npDiv
      rw [if_pos rfl, if_pos rfl]
      rfl
    · push Not at hiso
      have hfin : ((List.finRange n).map fun i => PyNum.fin (dw g.W i) +
          npDiv (∑ j, lapWeights g.W i j * dw g.W j) (dw g.W i))
          = ((List.finRange n).map fun i => wdeg g.W.dense i +
              (∑ j, wsym g.W.dense i j * wdeg g.W.dense j) / wdeg g.W.dense i).map PyNum.fin := by
        rw [List.map_map]
        refine List.map_congr_left fun i _ => ?_
        unfold npDiv
        rw [dw_eq, if_neg (hiso i)]
        simp only [lapWeights_apply, dw_eq, Function.comp]
        rfl
      rw [hfin]
      obtain ⟨r, hr1, hr2, hr3⟩ := npMax_fin ((List.finRange n).map fun i => wdeg g.W.dense i +
              (∑ j, wsym g.W.dense i j * wdeg g.W.dense j) / wdeg g.W.dense i) (by simpa using hV)
      have hG : IsGreatest {t | ∃ i, t = wdeg g.W.dense i + (∑ j, wsym g.W.dense i j * wdeg g.W.dense j) / wdeg g.W.dense i} r := by
        constructor
        · obtain ⟨i, -, hi⟩ := List.mem_map.1 hr2
          exact ⟨i, hi.symm⟩
        · rintro t ⟨i, rfl⟩
          exact hr3 _ (List.mem_map.2 ⟨i, List.mem_finRange _, rfl⟩)
      refine ⟨.fin r, hr1, .inr ⟨r, rfl⟩, fun r' => ⟨fun h => ?_, fun h => ?_⟩⟩
      · rw [← PyNum.fin.inj h]
        exact ⟨hiso, hG⟩
      · rw [h.2.unique hG]
  obtain ⟨b4, hb41, hb42, hb43⟩ := hb4
  have hmin := pyMin_spec ([.fin (2 * d)] ++ b3 ++ [b4]) (n * w) (by
    intro x hx
    simp only [List.mem_append, List.mem_singleton] at hx
    rcases hx with (rfl | hx) | rfl
    · exact .inr ⟨_, rfl⟩
    · obtain ⟨r, hr, -⟩ := (hb32 x).1 hx
      exact .inr ⟨r, hr⟩
    · exact hb42)
  obtain ⟨B, hB1, hB2, hB3, hB4⟩ := hmin
  refine ⟨B, w, d, ?_, hwG, hdG, ?_, ?_⟩
  · unfold Graph.upperBound
    rw [hlt]
    simp only
    rw [hw1]
    simp only [bind, Except.bind]
    erw [hd1]
    simp only
    rw [hb31]
    simp only
    rw [hb41]
    simp only
    exact hB1
  · rcases hB2 with h | h
    · exact .inl h
    · simp only [List.mem_append, List.mem_singleton, PyNum.fin.injEq] at h
      rcases h with (h | h) | h
      · exact .inr (.inl h)
      · obtain ⟨r, hr, hr2⟩ := (hb32 _).1 h
        exact .inr (.inr (.inl (PyNum.fin.inj hr ▸ hr2)))
      · exact .inr (.inr (.inr ((hb43 B).1 h.symm)))
  · intro b hb
    rcases hb with rfl | rfl | h | h
    · exact hB3
    · exact hB4 _ (by simp)
    · exact hB4 _ (by
        rw [List.mem_append, List.mem_append]
        exact .inl (.inr ((hb32 _).2 ⟨b, rfl, h⟩)))
    · exact hB4 _ (by
        rw [List.mem_append, List.mem_singleton]
        exact .inr ((hb43 b).2 h).symm)

/-- **C109** On the states that histories reach, `estimate_lmax('bounds')` followed by reading `G.lmax` gives that bound. -/
theorem C109_estimate {S : Solvers n} (hS : Sound S) {g : Graph n ℝ} (hg : g.Built) (hW : NonnegW g.W.dense) (hn : 0 < n) (ops : List (Op n)) {s : GState n}
    (hs : s = runAll S ops (GState.ofGraph g)) (hm : s.lmaxMethod ≠ some .bounds) :
    (s.lapType = .normalized → ((s.estimateLmax S .bounds).2.getLmax S).1 = .ok (some (.fin 2))) ∧
    (s.lapType = .combinatorial → ∃ B w d, ((s.estimateLmax S .bounds).2.getLmax S).1 = .ok (some (.fin B)) ∧
      IsGreatest {t | ∃ i j, t = g.W.dense i j} w ∧ IsGreatest {t | ∃ i, t = wdeg g.W.dense i} d ∧
      IsLeast {b | b = n * w ∨ b = 2 * d ∨ IsGreatest {t | ∃ i j, g.W.dense i j ≠ 0 ∧ t = wdeg g.W.dense i + wdeg g.W.dense j} b ∨
        (∀ i, wdeg g.W.dense i ≠ 0) ∧ IsGreatest {t | ∃ i, t = wdeg g.W.dense i + (∑ j, wsym g.W.dense i j * wdeg g.W.dense j) / wdeg g.W.dense i} b} B) := by
  obtain ⟨hi, hWs, -⟩ := reach_inv hS hg ops
  rw [← hs] at hi hWs
  have key : ∀ B, s.cur.upperBound = .ok (.fin B) → ((s.estimateLmax S .bounds).2.getLmax S).1 = .ok (some (.fin B)) := by
    intro B hB
    have hp : PureOK { s with lmaxMethod := some LmaxMethod.bounds } := ⟨hi.pure.1, hi.pure.2, hi.pure.3, hi.pure.4, hi.pure.5⟩
    obtain ⟨h1, h2⟩ := upperBound_spec hp
    have h1 := h1.trans hB
    unfold estimateLmax
    rw [if_neg hm]
    dsimp only
    revert h1
    cases upperBound { s with lmaxMethod := some LmaxMethod.bounds } with
    | mk r s' =>
      intro h1
      have h1 : r = _ := h1
      subst h1
      rfl
  constructor
  · intro hlt
    refine key 2 ?_
    unfold Graph.upperBound
    rw [show s.cur.lapType = .normalized from hlt]
  · intro hlt
    have hb : s.cur.Built := hi.built.withLapType _ (.inl hlt)
    obtain ⟨B, w, d, h1, h2⟩ := C109_value s.cur hb hlt (by rw [show s.cur.W = g.W from hWs]; exact hW) hn
    rw [show s.cur.W = g.W from hWs] at h2
    exact ⟨B, w, d, key B h1, h2⟩

open Classical in
/-- **C109** `estimate_lmax('bounds')` makes `G.lmax` the largest frequency on the graphs that have a regular bipartite component of the largest degree and on the
graphs that split in two parts joined by edges of the largest weight. -/
theorem C109_exact {S : Solvers n} (hS : Sound S) {g : Graph n ℝ} (hg : g.Built) (hW : NonnegW g.W.dense) (hn : 2 ≤ n) (ops : List (Op n)) {s : GState n}
    (hs : s = runAll S ops (GState.ofGraph g)) (hm : s.lmaxMethod ≠ some .bounds) (hlt : s.lapType = .combinatorial) {w d : ℝ}
    (hw : IsGreatest {t | ∃ i j, t = g.W.dense i j} w) (hd : IsGreatest {t | ∃ i, t = wdeg g.W.dense i} d)
    (h : (∃ A c, A.Nonempty ∧ TwoColored g.W.dense A c ∧ ∀ i ∈ A, wdeg g.W.dense i = d) ∨
      ∃ A : Finset (Fin n), A.Nonempty ∧ Aᶜ.Nonempty ∧ ∀ i ∈ A, ∀ j ∉ A, wsym g.W.dense i j = w) :
    ∃ v, ((s.estimateLmax S .bounds).2.getLmax S).1 = .ok (some (.fin v)) ∧ IsGreatest {l | IsEigenvalue s.L l} v := by
  obtain ⟨B, w', d', h1, h2, h3, h4⟩ := (C109_estimate hS hg hW (by omega) ops hs hm).2 hlt
  obtain rfl := h2.unique hw
  obtain rfl := h3.unique hd
  have hL := (C18_laplacian hS hg ops hs).2 (by rw [hlt]; exact .inl rfl)
  rw [hlt] at hL
  obtain ⟨hi, hWs, -⟩ := reach_inv hS hg ops
  rw [← hs] at hi hWs
  have hW' : NonnegW s.cur.W.dense := by rw [show s.cur.W = g.W from hWs]; exact hW
  obtain ⟨B', L', k1, k2, k3⟩ := C15_upper_bound s.cur (hi.built.withLapType _ (.inl hlt)) hW' (by omega)
  obtain ⟨B2, w2, d2, j1, j2, j3, j4⟩ := C109_value s.cur (hi.built.withLapType _ (.inl hlt)) hlt hW' (by omega)
  rw [show s.cur.W = g.W from hWs] at j2 j3 j4
  obtain rfl := j2.unique hw
  obtain rfl := j3.unique hd
  obtain rfl := j4.unique h4
  obtain rfl : B' = B2 := PyNum.fin.inj (Except.ok.inj (k1.symm.trans j1))
  have hLL : L' = s.L := by
    rw [show s.cur.W = g.W from hWs, show s.cur.lapType = .combinatorial from hlt] at k2
    exact Except.ok.inj (k2.symm.trans hL)
  rw [hLL] at k3
  have attained : ∀ b, IsEigenvalue s.L b → B' ≤ b → IsGreatest {l | IsEigenvalue s.L l} B' := by
    intro b hb hle
    have := le_antisymm hle (k3 b hb)
    subst this
    exact ⟨hb, fun l hl => k3 l hl⟩
  refine ⟨B', h1, ?_⟩
  rcases h with h | h
  · exact attained _ ((C109_regular_bipartite g.W hW hL hd).2 h) (h4.2 (.inr (.inl rfl)))
  · exact attained _ ((C109_join hn g.W hW hL hw).2 h) (h4.2 (.inl rfl))

/-- A triangle and a separate edge. -/
def triangleEdge : Matrix (Fin 5) (Fin 5) ℝ := !![0, 1, 1, 0, 0; 1, 0, 1, 0, 0; 1, 1, 0, 0, 0; 0, 0, 0, 0, 1; 0, 0, 0, 1, 0]

/-- **C109** Without connectedness the equivalence fails: a triangle and a separate edge have the eigenvalue 2 (as the comment in the code puts it, "Equal iff the graph
is bipartite"), and the graph is not bipartite. -/
theorem C109_bipartite_violated : ∃ g : Graph 5 ℝ, g.Built ∧ NonnegW g.W.dense ∧ ∃ L, laplacian g.W .normalized = .ok L ∧
    IsEigenvalue L 2 ∧ ¬ Bipartite g.W.dense := by
  obtain ⟨g, hg, hd, -⟩ := Graph.exists_built (K := ℝ) triangleEdge .normalized
  have hW : NonnegW g.W.dense := by
    rw [hd]
    intro i j
    fin_cases i <;> fin_cases j <;> simp [triangleEdge]
  refine ⟨g, hg, hW, _, laplacian_norm g.W hW, ?_, ?_⟩
  · rw [C109_normalized g.W hW (laplacian_norm g.W hW)]
    refine ⟨{3, 4}, fun i => decide (i = 3), ⟨3, by simp⟩, ?_, ?_⟩
    · rw [hd]
      intro i hi j hij
      rcases hi with rfl | hi
      · fin_cases j <;> simp [triangleEdge] at hij ⊢
      · rw [Set.mem_singleton_iff] at hi
        subst hi
        fin_cases j <;> simp [triangleEdge] at hij ⊢
    · rw [hd]
      intro i hi
      rcases hi with rfl | hi
      · rw [← sum_wsym]; simp [Fin.sum_univ_five, wsym, triangleEdge]
      · rw [Set.mem_singleton_iff] at hi
        subst hi
        rw [← sum_wsym]; simp [Fin.sum_univ_five, wsym, triangleEdge]
  · rintro ⟨c, hc⟩
    rw [hd] at hc
    have h1 := hc 0 1 (by simp [triangleEdge])
    have h2 := hc 1 2 (by simp [triangleEdge])
    have h3 := hc 0 2 (by simp [triangleEdge])
    cases h : c 0 <;> cases h' : c 1 <;> cases h'' : c 2 <;> simp_all

/-- the hypotheses are met: a cycle of four vertices is regular, bipartite and a join -/
example : ∃ g : Graph 4 ℝ, g.Built ∧ NonnegW g.W.dense ∧ g.lapType = .combinatorial ∧ (∃ S : Solvers 4, Sound S) ∧
    IsGreatest {t | ∃ i j, t = g.W.dense i j} 1 ∧ IsGreatest {t | ∃ i, t = wdeg g.W.dense i} 2 ∧
    (∃ A c, A.Nonempty ∧ TwoColored g.W.dense A c ∧ ∀ i ∈ A, wdeg g.W.dense i = 2) ∧
    ∃ A : Finset (Fin 4), A.Nonempty ∧ Aᶜ.Nonempty ∧ ∀ i ∈ A, ∀ j ∉ A, wsym g.W.dense i j = 1 := by
  obtain ⟨g, hg, hd, hl⟩ := Graph.exists_built (K := ℝ) (!![0, 1, 0, 1; 1, 0, 1, 0; 0, 1, 0, 1; 1, 0, 1, 0] : Matrix (Fin 4) (Fin 4) ℝ) .combinatorial
  obtain ⟨S, hS, -⟩ := exists_sound 4
  have hdeg : ∀ i, wdeg g.W.dense i = 2 := by
    intro i
    rw [hd, ← sum_wsym]
    fin_cases i <;> simp [Fin.sum_univ_four, wsym] <;> norm_num
  refine ⟨g, hg, ?_, hl, ⟨S, hS⟩, ⟨⟨0, 1, ?_⟩, ?_⟩, ⟨⟨0, (hdeg 0).symm⟩, ?_⟩, ⟨Set.univ, fun i => decide (i = 0 ∨ i = 2), ⟨0, trivial⟩, ?_, fun i _ => hdeg i⟩, {0, 2}, by simp, ⟨1, by simp⟩, ?_⟩
  · rw [hd]; intro i j; fin_cases i <;> fin_cases j <;> simp
  · rw [hd]; simp
  · rw [hd]; rintro t ⟨i, j, rfl⟩; fin_cases i <;> fin_cases j <;> simp
  · rintro t ⟨i, rfl⟩; exact (hdeg i).le
  · rw [hd]
    intro i _ j hij
    refine ⟨trivial, ?_⟩
    fin_cases i <;> fin_cases j <;> simp at hij ⊢
  · rw [hd]
    intro i hi j hj
    fin_cases i <;> fin_cases j <;> simp [wsym] at hi hj ⊢

end PyGSP
