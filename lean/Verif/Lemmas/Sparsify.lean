import Verif.Model.Sparsify
import Verif.Props.Utils
import Verif.Props.Kron
import Mathlib.Analysis.Complex.ExponentialBounds

/-! # Lemmas on `graph_sparsify` -/

namespace PyGSP

open Matrix Spec GState

variable {n : ℕ}

namespace Reduction

/-- the dense view of a list of entries given by functions -/
theorem dense_finRange {m : ℕ} (a b : Fin m → Fin n) (v : Fin m → ℝ) (i j : Fin n) :
    (⟨(List.finRange m).map fun k => (a k, b k, v k)⟩ : Sp n n ℝ).dense i j =
      ∑ k, if a k = i ∧ b k = j then v k else 0 := by
  unfold Sp.dense
  simp only [List.filter_map, List.map_map, Function.comp_def]
  rw [← List.sum_toFinset _ ((List.nodup_finRange m).filter _), List.toFinset_filter, List.toFinset_finRange, Finset.sum_filter]
  simp

theorem mem_sparsifyEdges {W : Matrix (Fin n) (Fin n) ℝ} {i j : Fin n} {w : ℝ} :
    (i, j, w) ∈ sparsifyEdges W ↔ j ≤ i ∧ 1 / 10 ^ 10 ≤ W i j ∧ w = W i j := by
  unfold sparsifyEdges Sp.tril
  simp only [List.mem_filter, Sp.mem_ofDense, Matrix.of_apply, decide_eq_true_eq]
  constructor
  · rintro ⟨⟨h1, h2⟩, h3⟩
    split at h2
    · exact absurd (by rw [if_pos (by assumption)] : _ = (0 : ℝ)) h1
    · exact ⟨h3, by push Not at *; assumption, h2.symm⟩
  · rintro ⟨h1, h2, rfl⟩
    have : ¬ W i j < 1 / 10 ^ 10 := not_lt.2 h2
    rw [if_neg this]
    have h0 : (0 : ℝ) < 1 / 10 ^ 10 := by norm_num
    exact ⟨⟨ne_of_gt (lt_of_lt_of_le h0 h2), rfl⟩, h1⟩

/-- the edges are listed once -/
theorem sparsifyEdges_nodup (W : Matrix (Fin n) (Fin n) ℝ) : (sparsifyEdges W).Nodup := by
  unfold sparsifyEdges Sp.tril
  refine List.Nodup.filter _ ?_
  have := Sp.canonical_ofDense (Matrix.of fun i j => if W i j < 1 / 10 ^ 10 then 0 else W i j)
  exact List.Nodup.of_map _ this

theorem resistance_diag (pinv : Matrix (Fin n) (Fin n) ℝ → Matrix (Fin n) (Fin n) ℝ) (L : Matrix (Fin n) (Fin n) ℝ) (i : Fin n) :
    resistanceOfMatrix pinv L i i = 0 := by
  unfold resistanceOfMatrix
  simp only [Matrix.sub_apply, Matrix.add_apply, Matrix.transpose_apply, Matrix.of_apply]
  ring

/-- sum over the edges of the lower triangle -/
theorem sum_edges (W : Matrix (Fin n) (Fin n) ℝ) (f : Fin n → Fin n → ℝ → ℝ) :
    ∑ k : Fin (sparsifyEdges W).length, f ((sparsifyEdges W).get k).1 ((sparsifyEdges W).get k).2.1 ((sparsifyEdges W).get k).2.2 =
      ∑ i, ∑ j, if j ≤ i ∧ 1 / 10 ^ 10 ≤ W i j then f i j (W i j) else 0 := by
  have h1 : ∑ k : Fin (sparsifyEdges W).length, f ((sparsifyEdges W).get k).1 ((sparsifyEdges W).get k).2.1 ((sparsifyEdges W).get k).2.2 =
      ∑ e ∈ (sparsifyEdges W).toFinset, f e.1 e.2.1 e.2.2 := by
    rw [List.sum_toFinset _ (sparsifyEdges_nodup W), ← List.sum_ofFn]
    congr 1
    conv_rhs => rw [← List.ofFn_get (sparsifyEdges W)]
    rw [List.map_ofFn]
    rfl
  rw [h1, ← Finset.sum_product', ← Finset.sum_filter]
  refine Finset.sum_bij (fun e _ => (e.1, e.2.1)) ?_ ?_ ?_ ?_
  · rintro ⟨i, j, w⟩ h
    obtain ⟨h1, h2, -⟩ := mem_sparsifyEdges.1 (List.mem_toFinset.1 h)
    simp [h1, h2]
    simpa using h2
  · rintro ⟨i, j, w⟩ h ⟨i', j', w'⟩ h' he
    obtain ⟨-, -, rfl⟩ := mem_sparsifyEdges.1 (List.mem_toFinset.1 h)
    obtain ⟨-, -, rfl⟩ := mem_sparsifyEdges.1 (List.mem_toFinset.1 h')
    simp only [Prod.mk.injEq] at he
    obtain ⟨rfl, rfl⟩ := he
    rfl
  · rintro ⟨i, j⟩ h
    simp only [Finset.mem_filter, Finset.mem_univ, true_and, Finset.univ_product_univ] at h
    exact ⟨(i, j, W i j), List.mem_toFinset.2 (mem_sparsifyEdges.2 ⟨h.1, h.2, rfl⟩), rfl⟩
  · rintro ⟨i, j, w⟩ h
    obtain ⟨-, -, rfl⟩ := mem_sparsifyEdges.1 (List.mem_toFinset.1 h)
    rfl

/-- What one successful iteration computes. -/
theorem sparsifyOnce_ok {R W : Matrix (Fin n) (Fin n) ℝ} {q : ℕ} {res : List ℕ} {W' : Matrix (Fin n) (Fin n) ℝ}
    (h : sparsifyOnce R (sparsifyEdges W) q res = .ok W') :
    (∀ k, (q : ℝ) * edgeProb R (sparsifyEdges W) k ≠ 0) ∧
    ∀ i j, W' i j = (∑ k : Fin (sparsifyEdges W).length, if ((sparsifyEdges W).get k).1 = i ∧ ((sparsifyEdges W).get k).2.1 = j then
        (res.count k.1 : ℝ) * (max 0 ((sparsifyEdges W).get k).2.2 / (q * edgeProb R (sparsifyEdges W) k)) else 0) +
      ∑ k : Fin (sparsifyEdges W).length, if ((sparsifyEdges W).get k).1 = j ∧ ((sparsifyEdges W).get k).2.1 = i then
        (res.count k.1 : ℝ) * (max 0 ((sparsifyEdges W).get k).2.2 / (q * edgeProb R (sparsifyEdges W) k)) else 0 := by
  unfold sparsifyOnce at h
  split at h
  · cases h
  · rename_i hne
    push Not at hne
    refine ⟨hne, fun i j => ?_⟩
    have := (Except.ok.inj h).symm
    rw [this, Matrix.add_apply, Matrix.transpose_apply, dense_finRange, dense_finRange]

/-- the result of the loop is that of one of the iterations -/
theorem sparsifyLoop_ok {pop : Pop n} {draws : ℕ → ℕ → List ℕ} {R : Matrix (Fin n) (Fin n) ℝ} {E} {fuel : ℕ} :
    ∀ {i : ℕ} {eps : ℝ} {W'}, 1 / Real.sqrt n ≤ eps → eps < 1 → sparsifyLoop pop draws R E fuel i eps = .ok W' →
      ∃ i' eps', 1 / Real.sqrt n ≤ eps' ∧ eps' < 1 ∧ sparsifyOnce R E (numDraws n eps') (draws i' (numDraws n eps')) = .ok W' := by
  induction fuel with
  | zero =>
    intro i eps W' h1 h2 h
    unfold sparsifyLoop at h
    split at h
    · cases h
    · rename_i W hW
      split at h
      · cases h
      · split at h
        · cases h
        · cases h; exact ⟨i, eps, h1, h2, hW⟩
        · cases h; exact ⟨i, eps, h1, h2, hW⟩
  | succ fuel ih =>
    intro i eps W' h1 h2 h
    unfold sparsifyLoop at h
    split at h
    · cases h
    · rename_i W hW
      split at h
      · cases h
      · split at h
        · cases h
        · cases h; exact ⟨i, eps, h1, h2, hW⟩
        · exact ih (by linarith) (by linarith) h

theorem sparsifyWeights_ok {pop : Pop n} {pinv} {draws : ℕ → ℕ → List ℕ} {eps : ℝ} {maxiter : ℕ}
    {L W W' : Matrix (Fin n) (Fin n) ℝ} (h : sparsifyWeights pop pinv draws eps maxiter L W = .ok W') :
    0 < n ∧ 0 < maxiter ∧ (1 / Real.sqrt n ≤ eps ∧ eps < 1) ∧
    ∑ l, edgeScore (resistanceOfMatrix pinv L) ((sparsifyEdges W).get l) ≠ 0 ∧
    ∃ i eps', 1 / Real.sqrt n ≤ eps' ∧ eps' < 1 ∧
      sparsifyOnce (resistanceOfMatrix pinv L) (sparsifyEdges W) (numDraws n eps') (draws i (numDraws n eps')) = .ok W' := by
  unfold sparsifyWeights at h
  split at h
  · cases h
  · rename_i h1
    push Not at h1
    simp only at h
    split at h
    · cases h
    · rename_i h2
      cases maxiter with
      | zero => cases h
      | succ fuel => exact ⟨Nat.pos_of_ne_zero h1.1, Nat.succ_pos _, h1.2, h2, sparsifyLoop_ok h1.2.1 h1.2.2 h⟩

/-- an edge with positive probability is not a self-loop and has a positive resistance -/
theorem edgeProb_ne {pinv} {L W : Matrix (Fin n) (Fin n) ℝ} {q : ℕ} {k}
    (h : (q : ℝ) * edgeProb (resistanceOfMatrix pinv L) (sparsifyEdges W) k ≠ 0) :
    0 < q ∧ 0 < ((sparsifyEdges W).get k).2.2 ∧
      0 < resistanceOfMatrix pinv L ((sparsifyEdges W).get k).1 ((sparsifyEdges W).get k).2.1 ∧
      ((sparsifyEdges W).get k).2.1 < ((sparsifyEdges W).get k).1 := by
  have hq : q ≠ 0 := by rintro rfl; simp at h
  have hp : edgeProb (resistanceOfMatrix pinv L) (sparsifyEdges W) k ≠ 0 := right_ne_zero_of_mul h
  have hm : (sparsifyEdges W).get k ∈ sparsifyEdges W := List.get_mem _ _
  obtain ⟨h1, h2, h3⟩ := mem_sparsifyEdges.1 (show (((sparsifyEdges W).get k).1, ((sparsifyEdges W).get k).2.1, ((sparsifyEdges W).get k).2.2) ∈ _ from hm)
  have h0 : (0 : ℝ) < 1 / 10 ^ 10 := by norm_num
  have hR : 0 < resistanceOfMatrix pinv L ((sparsifyEdges W).get k).1 ((sparsifyEdges W).get k).2.1 := by
    by_contra hc
    refine hp ?_
    unfold edgeProb edgeScore
    rw [max_eq_left (not_lt.1 hc)]
    simp
  refine ⟨Nat.pos_of_ne_zero hq, by rw [h3]; linarith, hR, lt_of_le_of_ne h1 fun he => ?_⟩
  rw [he, resistance_diag] at hR
  exact lt_irrefl _ hR

/-- the drawn indices are counted -/
theorem sum_count {m q : ℕ} {res : List ℕ} (hl : res.length = q) (hr : ∀ k ∈ res, k < m) : ∑ k : Fin m, (res.count k.1 : ℝ) = q := by
  subst hl
  induction res with
  | nil => simp
  | cons a t ih =>
    have ha : a < m := hr a (by simp)
    simp only [List.count_cons, Nat.cast_add, Finset.sum_add_distrib, List.length_cons]
    rw [ih fun k hk => hr k (List.mem_cons_of_mem _ hk), Finset.sum_eq_single ⟨a, ha⟩]
    · simp
    · intro b _ hb
      have : ¬ a = b.1 := fun h => hb (Fin.ext h.symm)
      simp [this]
    · simp

/-- **Foster's theorem**: the sum over the edges of conductance times effective resistance is the number of vertices minus one. -/
theorem foster {M : Matrix (Fin n) (Fin n) ℝ} (hM : NonnegW M) (hc : Connected M) (hn : 0 < n)
    {pinv : Matrix (Fin n) (Fin n) ℝ → Matrix (Fin n) (Fin n) ℝ} (hp : IsPinv (combLap M) (pinv (combLap M))) :
    ∑ i, ∑ j, wsym M i j * resistanceOfMatrix pinv (combLap M) i j = 2 * ((n : ℝ) - 1) := by
  have hinv : invOrPinv pinv (combLap M) = pinv (combLap M) := if_pos (det_combLap hn M)
  set P := pinv (combLap M) with hP
  set L := combLap M with hL
  have hPs : Pᵀ = P := hp.symm (combLap_isSymm M)
  -- the trace of `L P`
  have htr : ∑ i, (L * P) i i = (n : ℝ) - 1 := by
    have hcol : ∀ i j x, (L * P) x i - (L * P) x j = (if x = i then 1 else 0) - if x = j then 1 else 0 := by
      intro i j x
      have hf : ∑ x, (Pi.single i 1 - Pi.single j 1 : Fin n → ℝ) x = 0 := by simp
      have := congrFun (combLap_pinv hM hc hp hf) x
      rw [Matrix.mulVec_mulVec, Matrix.mulVec_sub, Matrix.mulVec_single_one, Matrix.mulVec_single_one] at this
      simp only [Pi.sub_apply, Pi.single_apply] at this
      exact this
    have hzero : ∀ j, ∑ x, (L * P) x j = 0 := by
      intro j
      have := sum_combLap_mulVec M (P *ᵥ Pi.single j 1)
      rw [Matrix.mulVec_mulVec, Matrix.mulVec_single_one] at this
      exact this
    let o : Fin n := ⟨0, hn⟩
    have h1 : ∀ x, (L * P) x x = (L * P) x o + 1 - if x = o then 1 else 0 := by
      intro x
      have := hcol x o x
      rw [if_pos rfl] at this
      linarith
    rw [Finset.sum_congr rfl fun x _ => h1 x, Finset.sum_sub_distrib, Finset.sum_add_distrib, hzero o]
    simp
  have hw : ∀ i j, wsym M i j = wsym M j i := fun i j => by unfold wsym; ring
  have h1 : ∑ i, (L * P) i i = ∑ i, ∑ j, wsym M i j * (P i i - P j i) := by
    refine Finset.sum_congr rfl fun i _ => ?_
    exact combLap_mulVec M (fun y => P y i) i
  have h2 : ∑ i, ∑ j, wsym M i j * (P i i - P j i) = ∑ i, ∑ j, wsym M i j * (P j j - P i j) := by
    rw [Finset.sum_comm]
    exact Finset.sum_congr rfl fun i _ => Finset.sum_congr rfl fun j _ => by rw [hw]
  have h3 : ∀ i j, wsym M i j * resistanceOfMatrix pinv L i j = wsym M i j * (P i i - P j i) + wsym M i j * (P j j - P i j) := by
    intro i j
    unfold resistanceOfMatrix
    simp only [Matrix.sub_apply, Matrix.add_apply, Matrix.transpose_apply, Matrix.of_apply, hinv]
    ring
  simp only [h3, Finset.sum_add_distrib]
  rw [← h2, ← h1, htr]
  ring

/-- enough draws: at least one for three vertices or more -/
theorem roundHalfEven_pos {x : ℝ} (h : 1 / 2 < x) : 1 ≤ roundHalfEven x := by
  have hf := Int.fract_add_floor x
  have h0 := Int.fract_nonneg x
  have h1 := Int.fract_lt_one x
  unfold roundHalfEven
  have hfl : 0 ≤ ⌊x⌋ := Int.floor_nonneg.2 (by linarith)
  split
  · have : (0 : ℝ) < ⌊x⌋ := by linarith
    exact_mod_cast this
  · split
    · omega
    · split
      · have : Int.fract x = 1 / 2 := le_antisymm (not_lt.1 (by assumption)) (not_lt.1 (by assumption))
        have : (0 : ℝ) < ⌊x⌋ := by linarith
        exact_mod_cast this
      · omega

theorem roundHalfEven_zero {x : ℝ} (h0 : 0 ≤ x) (h : x < 1 / 2) : roundHalfEven x = 0 := by
  unfold roundHalfEven
  have hfl : ⌊x⌋ = 0 := Int.floor_eq_zero_iff.2 ⟨h0, by linarith⟩
  have : Int.fract x = x := by rw [← Int.self_sub_floor, hfl]; simp
  rw [this, if_pos h, hfl]

theorem log_three : (105 / 100 : ℝ) < Real.log 3 := by
  have h1 : Real.log 2048 < Real.log 2187 := Real.log_lt_log (by norm_num) (by norm_num)
  rw [show (2048 : ℝ) = 2 ^ 11 by norm_num, show (2187 : ℝ) = 3 ^ 7 by norm_num, Real.log_pow, Real.log_pow] at h1
  have := Real.log_two_gt_d9
  push_cast at h1
  linarith

theorem numDraws_pos (hn : 3 ≤ n) {eps : ℝ} (h0 : 0 < eps) (h1 : eps < 1) : 0 < numDraws n eps := by
  unfold numDraws
  have hn' : (3 : ℝ) ≤ n := by exact_mod_cast hn
  have hl : Real.log 3 ≤ Real.log n := Real.log_le_log (by norm_num) hn'
  have h3 := log_three
  have h4 : (315 / 100 : ℝ) ≤ n * Real.log n := by nlinarith
  have h5 : eps ^ 2 < 1 := by nlinarith
  have h6 : 0 < eps ^ 2 := by positivity
  have : 1 / 2 < n * Real.log n * 9 * (4 / 30) ^ 2 / eps ^ 2 := by
    rw [lt_div_iff₀ h6]
    nlinarith
  have := roundHalfEven_pos this
  omega

theorem numDraws_two {eps : ℝ} (h : 1 / Real.sqrt 2 ≤ eps) : numDraws 2 eps = 0 := by
  unfold numDraws
  have h0 : 0 < 1 / Real.sqrt 2 := by positivity
  have h1 : 1 / 2 ≤ eps ^ 2 := by
    have : (1 / Real.sqrt 2) ^ 2 = 1 / 2 := by rw [div_pow, Real.sq_sqrt (by norm_num)]; norm_num
    rw [← this]
    exact pow_le_pow_left₀ h0.le h 2
  have h2 := Real.log_two_lt_d9
  have h3 := Real.log_two_gt_d9
  rw [roundHalfEven_zero]
  · rfl
  · push_cast; positivity
  · rw [div_lt_iff₀ (by linarith)]
    push_cast
    nlinarith

end Reduction

end PyGSP
