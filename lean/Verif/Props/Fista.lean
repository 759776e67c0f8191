import Verif.Lemmas.Fista
import Verif.Props.TwoClassifiers
import Mathlib.Analysis.Convex.StdSimplex

/-!
# C147: the accelerated solver of `classification_tikhonov_simplex`
-/

namespace PyGSP

open Matrix Spec GState Learning Fista

variable {n : ℕ}

namespace Fista

variable {d : ℕ} {L : Matrix (Fin n) (Fin n) ℝ} {m : Fin n → Bool} {Y : Matrix (Fin n) (Fin d) ℝ} {tau lmax : ℝ}

/-- the state after `k` iterations -/
noncomputable def steps (idx : (Fin d → ℝ) → Fin d → Fin d) (L : Matrix (Fin n) (Fin n) ℝ) (m : Fin n → Bool)
    (Y : Matrix (Fin n) (Fin d) ℝ) (tau lmax : ℝ) : ℕ → Py (FistaState n d)
  | 0 => .ok ⟨Y, Y, 1⟩
  | k + 1 =>
    match steps idx L m Y tau lmax k with
    | .error e => .error e
    | .ok st => accelStep idx L m Y tau lmax (k + 1) st

theorem steps_succ {idx : (Fin d → ℝ) → Fin d → Fin d} {k : ℕ} {st : FistaState n d} (h : steps idx L m Y tau lmax k = .ok st) :
    steps idx L m Y tau lmax (k + 1) = accelStep idx L m Y tau lmax (k + 1) st := by
  rw [steps, h]

/-- the problem has a solution -/
theorem exists_min (hd : 0 < d) : ∃ Z : Matrix (Fin n) (Fin d) ℝ, RowsInSimplex Z ∧ ∀ X, RowsInSimplex X → classObjective L m Y tau Z ≤ classObjective L m Y tau X := by
  have hK : IsCompact (Set.pi Set.univ fun _ : Fin n => stdSimplex ℝ (Fin d)) := isCompact_univ_pi fun _ => isCompact_stdSimplex ℝ (Fin d)
  have hne : (Set.pi Set.univ fun _ : Fin n => stdSimplex ℝ (Fin d)).Nonempty :=
    ⟨fun _ => Pi.single ⟨0, hd⟩ 1, fun _ _ => single_mem_stdSimplex ℝ _⟩
  have hc : Continuous fun X : Fin n → Fin d → ℝ => classObjective L m Y tau X := by
    unfold classObjective objective smoothness
    simp only [Matrix.mulVec, dotProduct]
    refine continuous_finset_sum _ fun j _ => ?_
    refine Continuous.add (continuous_finset_sum _ fun v _ => ?_) (by fun_prop)
    split
    · fun_prop
    · fun_prop
  obtain ⟨Z, hZ, hmin⟩ := hK.exists_isMinOn hne hc.continuousOn
  exact ⟨Z, fun v => hZ v (Set.mem_univ v), fun X hX => hmin (Set.mem_univ_pi.2 fun v => hX v)⟩

section
variable {idx : (Fin d → ℝ) → Fin d → Fin d} (hidx : IsArgsort idx) (hd : 0 < d) (hL : Lᵀ = L) (hp : PSD L) (h0 : 0 ≤ lmax)
  (hmax : ∀ l, IsEigenvalue L l → l ≤ lmax) (ht : 0 < tau)
include hidx hd hL hp h0 hmax ht

theorem steps_inv {Z : Matrix (Fin n) (Fin d) ℝ} (hmin : ∀ X, RowsInSimplex X → classObjective L m Y tau Z ≤ classObjective L m Y tau X)
    (hZ : RowsInSimplex Z) (k : ℕ) : ∃ st, steps idx L m Y tau lmax (k + 1) = .ok st ∧ Inv L m Y tau lmax Z (k + 1) st := by
  induction k with
  | zero => exact first_inv hidx hd hL hp h0 hmax ht hmin hZ 1
  | succ k ih =>
    obtain ⟨st, h1, h2⟩ := ih
    rw [steps_succ h1]
    exact next_inv hidx hd hL hp h0 hmax ht hZ (by omega) h2

/-- what the loop returns -/
theorem loop_spec (rtol : ℝ) : ∀ todo done last st, steps idx L m Y tau lmax done = .ok st →
    ∃ st' K, steps idx L m Y tau lmax K = .ok st' ∧ solveLoop idx L m Y tau lmax rtol todo done last st = .ok (st'.sol, K) ∧ K ≤ done + todo ∧
      (0 < todo → done < K) ∧ (rtol ≤ 0 → K = done + todo) := by
  intro todo
  induction todo with
  | zero => intro done last st h; exact ⟨st, done, h, rfl, le_rfl, fun h => absurd h (lt_irrefl 0), fun _ => rfl⟩
  | succ todo ih =>
    intro done last st h
    obtain ⟨Z, hZ, hmin⟩ := exists_min (L := L) (m := m) (Y := Y) (tau := tau) hd
    obtain ⟨st', h1, -⟩ := steps_inv hidx hd hL hp h0 hmax ht hmin hZ done
    have h2 := h1
    rw [steps_succ h] at h2
    rw [solveLoop, h2]
    dsimp only
    by_cases hr : relChange (smoothEval L m Y tau st'.sol) last < rtol
    · rw [if_pos hr]
      refine ⟨st', done + 1, h1, rfl, by omega, fun _ => by omega, fun h => ?_⟩
      exact absurd (lt_of_lt_of_le hr h) (not_lt.2 (abs_nonneg _))
    · rw [if_neg hr]
      obtain ⟨st2, K, a1, a2, a3, a4, a5⟩ := ih (done + 1) (smoothEval L m Y tau st'.sol) st' h1
      refine ⟨st2, K, a1, a2, by omega, fun _ => ?_, fun h => by have := a5 h; omega⟩
      rcases Nat.eq_zero_or_pos todo with rfl | hpos
      · rw [solveLoop] at a2
        have := congrArg Prod.snd (Except.ok.inj a2)
        simp only at this
        omega
      · have := a4 hpos; omega

end

/-- the starting point is near every probability -/
theorem start_near (y : Fin n → ℕ) {Z : Matrix (Fin n) (Fin d) ℝ} (hZ : RowsInSimplex Z) : sqDist Z (fitted y m d) ≤ 2 * n := by
  have hle : ∀ v j, Z v j ≤ 1 := fun v j => by
    rw [← (hZ v).2]
    exact Finset.single_le_sum (f := fun j => Z v j) (fun j _ => (hZ v).1 j) (Finset.mem_univ j)
  have hrow : ∀ v, ∑ j, (Z v j - fitted y m d v j) ^ 2 ≤ 2 := by
    intro v
    have h1 : ∑ j, (Z v j - fitted y m d v j) ^ 2 ≤ ∑ j, (Z v j + fitted y m d v j) := by
      refine Finset.sum_le_sum fun j _ => ?_
      have a := (hZ v).1 j
      have b := hle v j
      unfold fitted
      split <;> nlinarith
    have h2 : ∑ j, fitted y m d v j ≤ 1 := by
      by_cases hy : y v < d
      · rw [Finset.sum_eq_single ⟨y v, hy⟩]
        · unfold fitted; split <;> norm_num
        · intro j _ hj
          unfold fitted
          rw [if_neg]
          rintro ⟨-, e⟩
          exact hj (Fin.ext (by exact_mod_cast e))
        · simp
      · rw [Finset.sum_eq_zero]
        · norm_num
        · intro j _
          unfold fitted
          rw [if_neg]
          rintro ⟨-, e⟩
          have := j.2
          omega
    rw [Finset.sum_add_distrib, (hZ v).2] at h1
    linarith
  unfold sqDist
  refine (Finset.sum_le_sum fun v _ => hrow v).trans ?_
  simp [mul_comm]

theorem setup_ok (hn : 0 < n) (y : Fin n → ℕ) (m : Fin n → Bool) (ht : 0 < tau) : ∃ k, simplexSetup (fun v => (y v : ℤ)) m tau = .ok ⟨k, fitted y m k⟩ ∧
    (∀ v, (if m v then y v else 0) < k) ∧ ∃ v, (if m v then y v else 0) + 1 = k := by
  obtain ⟨k, Y, h1, h2, h3, h4⟩ := C60_logits hn fun v => if m v then y v else 0
  have e : (fun v => if m v = true then (y v : ℤ) else 0) = fun v => (((if m v then y v else 0 : ℕ)) : ℤ) := by
    funext v; split <;> simp
  refine ⟨k, ?_, h2, h3⟩
  unfold simplexSetup
  rw [if_neg (not_le.2 ht), e, h1]
  dsimp only
  congr 2
  funext v j
  rw [h4]
  unfold fitted
  by_cases hv : m v = true
  · simp only [hv, if_true, true_and]
    refine if_congr ?_ rfl rfl
    omega
  · simp [hv]

end Fista

variable {S : Solvers n} {g : Graph n ℝ} {s : GState n} {m : Fin n → Bool} {y : Fin n → ℕ} {tau lmax rtol : ℝ} {maxit : ℕ}
  {idx : ∀ d, (Fin d → ℝ) → Fin d → Fin d}

namespace Fista

theorem run_spec (h : Ready S g s) (hidx : ∀ d, IsArgsort (idx d)) (h0 : 0 ≤ lmax) (hmax : ∀ l, IsEigenvalue s.L l → l ≤ lmax) (ht : 0 < tau) (y : Fin n → ℕ)
    (m : Fin n → Bool) (rtol : ℝ) (maxit : ℕ) : ∃ k K st, classificationSimplex idx s.L (fun v => (y v : ℤ)) m tau lmax rtol maxit = .ok ⟨k, st.sol, K⟩ ∧
      steps (idx k) s.L m (fitted y m k) tau lmax K = .ok st ∧ 1 ≤ K ∧ K ≤ max maxit 1 ∧ (rtol ≤ 0 → K = max maxit 1) ∧
      (∀ v, (if m v then y v else 0) < k) ∧ (∃ v, (if m v then y v else 0) + 1 = k) := by
  obtain ⟨hsym, hpsd⟩ := ready_lap h
  obtain ⟨k, h1, h2, h3⟩ := setup_ok h.pos y m ht
  have hk : 0 < k := by have := h2 ⟨0, h.pos⟩; omega
  obtain ⟨st, K, a1, a2, a3, a4, a5⟩ := loop_spec (m := m) (Y := fitted y m k) (hidx k) hk hsym hpsd h0 hmax ht rtol (max maxit 1) 0
    (smoothEval s.L m (fitted y m k) tau (fitted y m k)) ⟨fitted y m k, fitted y m k, 1⟩ rfl
  refine ⟨k, K, st, ?_, a1, a4 (by omega), by omega, fun h => by have := a5 h; omega, h2, h3⟩
  unfold classificationSimplex
  rw [h1]
  dsimp only
  have : solveSimplex (idx k) s.L m (Matrix.of (fitted y m k)) tau lmax rtol maxit = .ok (st.sol, K) := a2
  rw [this]

end Fista

/-- **C147** `classification_tikhonov_simplex` returns after between one and `maxit` iterations (exactly `maxit` when `rtol` is zero), every row is
a probability vector, and after `K` iterations the objective exceeds that of any matrix of probability vectors by at most
`40 N (1 + tau lmax) / (K + 2)²`. -/
theorem C147_rate (h : Ready S g s) (hidx : ∀ d, IsArgsort (idx d)) (h0 : 0 ≤ lmax) (hmax : ∀ l, IsEigenvalue s.L l → l ≤ lmax) (ht : 0 < tau) :
    ∃ k X K, classificationSimplex idx s.L (fun v => (y v : ℤ)) m tau lmax rtol maxit = .ok ⟨k, X, K⟩ ∧ 1 ≤ K ∧ K ≤ max maxit 1 ∧
      (rtol ≤ 0 → K = max maxit 1) ∧ RowsInSimplex X ∧ ∀ Z : Matrix (Fin n) (Fin k) ℝ, RowsInSimplex Z →
        classObjective s.L m (fitted y m k) tau X ≤ classObjective s.L m (fitted y m k) tau Z + 40 * n * (1 + tau * lmax) / (K + 2) ^ 2 := by
  obtain ⟨hsym, hpsd⟩ := ready_lap h
  obtain ⟨k, K, st, h1, h2, h3, h4, h5, h6, h7⟩ := Fista.run_spec h hidx h0 hmax ht y m rtol maxit
  have hk : 0 < k := by have := h6 ⟨0, h.pos⟩; omega
  obtain ⟨Z0, hZ0, hmin⟩ := exists_min (L := s.L) (m := m) (Y := fitted y m k) (tau := tau) hk
  obtain ⟨K', rfl⟩ : ∃ K', K = K' + 1 := ⟨K - 1, by omega⟩
  obtain ⟨st', a1, a2⟩ := steps_inv (m := m) (Y := fitted y m k) (hidx k) hk hsym hpsd h0 hmax ht hmin hZ0 K'
  obtain rfl : st = st' := Except.ok.inj (h2.symm.trans a1)
  refine ⟨k, st.sol, K' + 1, h1, h3, h4, h5, a2.rows, fun Z hZ => ?_⟩
  have b1 := a2.gap
  have b2 := a2.big
  have b3 := drift_nonneg st.t st.sol st.prev Z0
  have hc : 0 < 1 + tau * lmax := by have := mul_nonneg ht.le h0; linarith
  have b4 := start_near (m := m) y hZ0
  have b5 := hmin Z hZ
  have b6 := hmin _ a2.rows
  have b7 := mul_nonneg hc.le b3
  have b8 := mul_le_mul_of_nonneg_left b4 hc.le
  have hK : (0 : ℝ) < ((K' + 1 : ℕ) : ℝ) + 2 := by positivity
  have b9 : ((((K' + 1 : ℕ) : ℝ) + 2) / 2) ^ 2 ≤ st.t ^ 2 := pow_le_pow_left₀ (by positivity) b2 2
  have b10 := mul_le_mul_of_nonneg_right b9 (sub_nonneg.2 b6)
  have b11 : classObjective s.L m (fitted y m k) tau st.sol - classObjective s.L m (fitted y m k) tau Z0 ≤
      40 * n * (1 + tau * lmax) / (((K' + 1 : ℕ) : ℝ) + 2) ^ 2 := by
    rw [le_div_iff₀ (by positivity)]
    rw [div_pow] at b10
    nlinarith
  linarith

section
variable {cg : Matrix (Fin n) (Fin n) ℝ → (Fin n → ℝ) → Fin n → ℝ}

/-- **C147** The distance to `classification_tikhonov`: its square is at most `40 N (1 + tau lmax) / (mu (K + 2)²)` after `K` iterations, where `mu > 0` is at
most the smallest eigenvalue of the operator of the regression (mask plus `tau L`). -/
theorem C147_distance (h : Ready S g s) (hl : s.lapType = .combinatorial) (ha : Anchored g.W.dense m) (hidx : ∀ d, IsArgsort (idx d)) (h0 : 0 ≤ lmax)
    (hmax : ∀ l, IsEigenvalue s.L l → l ≤ lmax) (ht : 0 < tau) (hcg : ExactCG cg) {k k' K : ℕ} {X : Matrix (Fin n) (Fin k) ℝ} {X' : Matrix (Fin n) (Fin k') ℝ}
    (hX : classification cg s.L (fun v => (y v : ℤ)) m tau = .ok ⟨k, X⟩)
    (hX' : classificationSimplex idx s.L (fun v => (y v : ℤ)) m tau lmax rtol maxit = .ok ⟨k', X', K⟩) {mu : ℝ} (hmu0 : 0 < mu)
    (hmu : ∀ l, IsEigenvalue (Matrix.diagonal (fun v => if m v then 1 else 0) + tau • s.L) l → mu ≤ l) :
    ∃ e : k' = k, ∑ v, ∑ j : Fin k, (X v j - X' v (j.cast e.symm)) ^ 2 ≤ 40 * n * (1 + tau * lmax) / (mu * (K + 2) ^ 2) := by
  obtain ⟨hsetup, hk, hXs, hmin⟩ := C139_same_problem h hl ha hcg ht hX
  obtain ⟨k2, X2, K2, h1, h2, h3, h4, h5, h6⟩ := C147_rate (y := y) (m := m) (rtol := rtol) (maxit := maxit) h hidx h0 hmax ht
  have e1 := Except.ok.inj (hX'.symm.trans h1)
  cases e1
  have e2 : k' = k := by
    obtain ⟨k4, K4, st, f1, f2, f3, f4, f5, f6, ⟨v4, hv4⟩⟩ := Fista.run_spec h hidx h0 hmax ht y m rtol maxit
    have := congrArg Sigma.fst (Except.ok.inj (hX'.symm.trans f1))
    simp only at this
    obtain ⟨hlt, ⟨v0, hv0⟩, -⟩ := classification_inv hX
    have a1 := f6 v0
    have a2 : (if m v4 = true then y v4 else 0) < k := by
      split
      · exact hlt _ (by assumption)
      · exact hk
    omega
  subst e2
  refine ⟨rfl, ?_⟩
  have a1 := h6 X hXs
  have a2 := classObjective_gap h hcg ht hX X'
  have a3 := energy_ge h hmu X' X
  have a4 : mu * sqDist X X' ≤ 40 * n * (1 + tau * lmax) / (K + 2) ^ 2 := by linarith
  have a5 : sqDist X X' ≤ 40 * n * (1 + tau * lmax) / (mu * (K + 2) ^ 2) := by
    have hK : (0 : ℝ) < ((K : ℝ) + 2) ^ 2 := by positivity
    rw [le_div_iff₀ hK] at a4
    rw [le_div_iff₀ (mul_pos hmu0 hK)]
    linarith
  exact a5

end

namespace Fista

variable {d : ℕ} {L : Matrix (Fin n) (Fin n) ℝ} {Y : Matrix (Fin n) (Fin d) ℝ}

theorem proj_const {idx : (Fin d → ℝ) → Fin d → Fin d} (hidx : IsArgsort idx) (hd : 0 < d) {a : ℝ} {r z : Fin d → ℝ} (hz : ∀ j, z j = a)
    (h : projSimplex idx z = .ok r) (j : Fin d) : r j = 1 / d := by
  obtain ⟨lam, h1, h2⟩ := projSimplex_ok (hidx z).1 (hidx z).2 hd
  have h3 := Except.ok.inj (h.symm.trans h1)
  rw [h3]
  simp only [hz] at h2 ⊢
  simp only [Finset.sum_const, Finset.card_univ, Fintype.card_fin, nsmul_eq_mul] at h2
  have : (d : ℝ) ≠ 0 := by positivity
  field_simp
  linarith

/-- rows far from the labels do not distinguish the classes -/
theorem far (W : Matrix (Fin n) (Fin n) ℝ) (hoff : ∀ i j, i ≠ j → W i j = 0 → W j i = 0 → L i j = 0) {idx : (Fin d → ℝ) → Fin d → Fin d} (hidx : IsArgsort idx)
    (hd : 0 < d) (hY : ∀ v, m v = false → ∀ j, Y v j = 0) : ∀ k st, steps idx L m Y tau lmax k = .ok st → ∀ v, (∀ w, m w = true → ¬ WithinHops W k v w) →
      (∃ a, ∀ j, st.sol v j = a) ∧ (∃ a, ∀ j, st.prev v j = a) ∧ (0 < k → ∀ j, st.sol v j = 1 / d) := by
  intro k
  induction k with
  | zero =>
    intro st hst v hv
    obtain rfl := Except.ok.inj hst
    have hm : m v = false := by
      by_contra hm
      exact hv v (by simpa using hm) rfl
    exact ⟨⟨0, hY v hm⟩, ⟨0, hY v hm⟩, fun h => absurd h (lt_irrefl 0)⟩
  | succ k ih =>
    intro st hst v hv
    rw [steps] at hst
    rcases hk : steps idx L m Y tau lmax k with e | st0
    · rw [hk] at hst; cases hst
    rw [hk] at hst
    dsimp only at hst
    unfold accelStep at hst
    dsimp only at hst
    generalize (if k + 1 = 1 then (1 : ℝ) else st0.t) = t at hst
    generalize (t - 1) / ((1 + √(1 + 4 * t ^ 2)) / 2) = c at hst
    split at hst
    · cases hst
    rename_i X hX
    obtain rfl := Except.ok.inj hst
    have hnear : ∀ w, (v = w ∨ W v w ≠ 0 ∨ W w v ≠ 0) → ∀ u, m u = true → ¬ WithinHops W k w u := fun w hw u hu hwu => hv u hu ⟨w, hw, hwu⟩
    have hV : ∀ w, (v = w ∨ W v w ≠ 0 ∨ W w v ≠ 0) → ∃ a, ∀ j, (st0.sol + c • (st0.sol - st0.prev)) w j = a := by
      intro w hw
      obtain ⟨⟨a, ha⟩, ⟨b, hb⟩, -⟩ := ih st0 hk w (hnear w hw)
      refine ⟨a + c * (a - b), fun j => ?_⟩
      simp only [Matrix.add_apply, Matrix.smul_apply, Matrix.sub_apply, smul_eq_mul, ha, hb]
    have hself : ∃ a, ∀ j, st0.sol v j = a := (ih st0 hk v (hnear v (.inl rfl))).1
    generalize st0.sol + c • (st0.sol - st0.prev) = V at hX hV
    have hm : m v = false := by
      by_contra hm
      exact hv v (by simpa using hm) (withinHops_mono W (Nat.zero_le _) (k := 0) rfl)
    have hLV : ∃ a, ∀ j, (L * V) v j = a := by
      have : ∀ w, ∃ a, ∀ j, L v w * V w j = a := by
        intro w
        by_cases hw : v = w ∨ W v w ≠ 0 ∨ W w v ≠ 0
        · obtain ⟨a, ha⟩ := hV w hw
          exact ⟨L v w * a, fun j => by rw [ha]⟩
        · push Not at hw
          exact ⟨0, fun j => by rw [hoff v w hw.1 hw.2.1 hw.2.2, zero_mul]⟩
      choose a ha using this
      exact ⟨∑ w, a w, fun j => by rw [Matrix.mul_apply]; exact Finset.sum_congr rfl fun w _ => ha w j⟩
    obtain ⟨a, ha⟩ := hLV
    obtain ⟨b, hb⟩ := hV v (.inl rfl)
    unfold fbStep at hX
    dsimp only at hX
    split at hX
    · cases hX
    rename_i X2 hX2
    obtain rfl := Except.ok.inj hX
    have hrow := (seqFin_ok n _ _).1 hX2 v
    have huni := proj_const hidx hd (a := b - 0.5 / (1 + tau * lmax) * (2 * (tau * a))) (fun j => by
      unfold smoothGrad
      rw [Matrix.of_apply, hm, ha, hb]
      simp) hrow
    exact ⟨⟨1 / d, huni⟩, hself, fun _ => huni⟩

end Fista

/-- **C147** Information travels one hop per iteration: after `K` iterations, at a vertex more than `K` hops away from all the labelled ones every class
has the same probability (for both Laplacians), so that the documented `argmax` gives class 0. -/
theorem C147_far (h : Ready S g s) (hidx : ∀ d, IsArgsort (idx d)) (h0 : 0 ≤ lmax) (hmax : ∀ l, IsEigenvalue s.L l → l ≤ lmax) (ht : 0 < tau)
    {k K : ℕ} {X : Matrix (Fin n) (Fin k) ℝ} (hX : classificationSimplex idx s.L (fun v => (y v : ℤ)) m tau lmax rtol maxit = .ok ⟨k, X, K⟩) {v : Fin n}
    (hv : ∀ w, m w = true → ¬ WithinHops g.W.dense K v w) (j : Fin k) : X v j = 1 / k := by
  obtain ⟨k', K', st, h1, h2, h3, -, -, h6, -⟩ := Fista.run_spec h hidx h0 hmax ht y m rtol maxit
  have e := Except.ok.inj (hX.symm.trans h1)
  cases e
  have hk : 0 < k := by have := h6 ⟨0, h.pos⟩; omega
  refine (far g.W.dense (fun i j a b c => Locality.lap_off h a b c) (hidx k) hk ?_ K st h2 v hv).2.2 h3 j
  intro v hv j
  unfold fitted
  simp [hv]

/-- **C147** So when all the measured labels are `c > 0` and a vertex is more than `maxit` hops away from them, its row is uniform over the `c + 1` classes,
although giving class `c` to every vertex has the objective zero. -/
theorem C147_far_violated (h : Ready S g s) (hl : s.lapType = .combinatorial) (hidx : ∀ d, IsArgsort (idx d)) (h0 : 0 ≤ lmax)
    (hmax : ∀ l, IsEigenvalue s.L l → l ≤ lmax) (ht : 0 < tau) {c : ℕ} (hmc : ∃ w, m w = true) {v : Fin n}
    (hv : ∀ w, m w = true → ¬ WithinHops g.W.dense (max maxit 1) v w) :
    ∃ X K, classificationSimplex idx s.L (fun _ => (c : ℤ)) m tau lmax rtol maxit = .ok ⟨c + 1, X, K⟩ ∧ (∀ j, X v j = 1 / (c + 1)) ∧
      classObjective s.L m (fitted (fun _ => c) m (c + 1)) tau (Matrix.of fun _ j => if j.1 = c then 1 else 0) = 0 := by
  obtain ⟨k, K, st, h1, h2, h3, h4, h5, h6, ⟨v0, hv0⟩⟩ := Fista.run_spec h hidx h0 hmax ht (fun _ => c) m rtol maxit
  obtain ⟨w, hw⟩ := hmc
  have hk : k = c + 1 := by
    have := h6 w
    rw [if_pos hw] at this
    split at hv0 <;> omega
  subst hk
  refine ⟨st.sol, K, h1, fun j => ?_, ?_⟩
  · have := C147_far (y := fun _ => c) h hidx h0 hmax ht h1 (v := v) (fun w hw hh => hv w hw (withinHops_mono _ h4 hh)) j
    rw [this]; push_cast; rfl
  · unfold classObjective objective
    refine Finset.sum_eq_zero fun j _ => ?_
    have e1 : (∑ v, if m v then ((Matrix.of fun _ j => if j.1 = c then 1 else 0 : Matrix (Fin n) (Fin (c + 1)) ℝ) v j - fitted (fun _ => c) m (c + 1) v j) ^ 2 else 0) = 0 := by
      refine Finset.sum_eq_zero fun v _ => ?_
      unfold fitted
      by_cases hm : m v = true
      · rw [if_pos hm, Matrix.of_apply]
        have : ((j.1 : ℤ) = (c : ℤ)) ↔ j.1 = c := by norm_cast
        simp only [hm, true_and, this, sub_self]
        norm_num
      · rw [if_neg hm]
    rw [e1, h.comb hl, zero_add]
    unfold smoothness
    have e2 : combLap g.W.dense *ᵥ (fun v : Fin n => (Matrix.of fun _ j => if j.1 = c then 1 else 0 : Matrix (Fin n) (Fin (c + 1)) ℝ) v j) = 0 := by
      simp only [Matrix.of_apply]
      exact combLap_const _ _
    rw [e2, dotProduct_zero, mul_zero]

/-- A reachable case: the path with four vertices, labelled at one end, two iterations; the other end is three hops away. -/
example : ∃ (g : Graph 4 ℝ) (S : Solvers 4) (s : GState 4) (cg : Matrix (Fin 4) (Fin 4) ℝ → (Fin 4 → ℝ) → Fin 4 → ℝ) (idx : ∀ d, (Fin d → ℝ) → Fin d → Fin d)
    (m : Fin 4 → Bool) (X : Matrix (Fin 4) (Fin 2) ℝ) (K : ℕ) (X0 : Matrix (Fin 4) (Fin 2) ℝ) (mu : ℝ),
    Ready S g s ∧ s.lapType = .combinatorial ∧ Anchored g.W.dense m ∧ ExactCG cg ∧ (∀ d, IsArgsort (idx d)) ∧ (∀ l, IsEigenvalue s.L l → l ≤ 4) ∧
    (∀ w, m w = true → ¬ WithinHops g.W.dense (max 2 1) 3 w) ∧ (∃ w, m w = true) ∧ 0 < mu ∧
    (∀ l, IsEigenvalue (Matrix.diagonal (fun v => if m v then 1 else 0) + (1 : ℝ) • s.L) l → mu ≤ l) ∧
    classification cg s.L (fun _ => ((1 : ℕ) : ℤ)) m 1 = .ok ⟨2, X0⟩ ∧
    classificationSimplex idx s.L (fun _ => ((1 : ℕ) : ℤ)) m 1 4 (1 / 1000) 2 = .ok ⟨2, X, K⟩ ∧ X 3 1 = 1 / 2 := by
  obtain ⟨S, g, s, hd, h, hl, -⟩ := exists_ready path4 path4_nonneg (by norm_num)
  obtain ⟨cg, hcg⟩ := exists_cg 4
  choose idx hidx using exists_argsort
  have hcon : Connected g.W.dense := by rw [hd]; exact path4_connected
  have ha : Anchored g.W.dense ![true, false, false, false] := fun v => ⟨0, rfl, hcon v 0⟩
  have hB : ∀ l, IsEigenvalue s.L l → l ≤ 4 := by
    intro l hl'
    rw [h.comb hl, hd] at hl'
    obtain ⟨i, hi⟩ := eig_le_gershgorin path4_nonneg hl'
    refine hi.trans ?_
    fin_cases i <;> simp [wdeg, path4, Fin.sum_univ_four] <;> norm_num
  have hfar : ∀ w, (![true, false, false, false] : Fin 4 → Bool) w = true → ¬ WithinHops g.W.dense (max 2 1) 3 w := by
    intro w hw
    have hw0 : w = 0 := by fin_cases w <;> simp_all
    subst hw0
    rw [hd]
    rintro ⟨a, ha, b, hb, c⟩
    have c' : b = 0 := c
    subst c'
    fin_cases a <;> simp [path4] at ha hb
  obtain ⟨X, K, h1, h2, -⟩ := C147_far_violated (m := ![true, false, false, false]) (c := 1) (rtol := 1 / 1000) (tau := 1) h hl hidx (by norm_num) hB one_pos ⟨0, rfl⟩ hfar
  obtain ⟨mu, hmu0, hmu⟩ := exists_mu h hl ha one_pos
  obtain ⟨k, X0, hX0, hv0⟩ : ∃ k, ∃ X0 : Fin 4 → Fin k → ℝ, classification cg s.L (fun _ => ((1 : ℕ) : ℤ)) ![true, false, false, false] 1 = .ok ⟨k, X0⟩ ∧ k = 2 := by
    obtain ⟨k, Y, a1, a2, ⟨v, a3⟩, -⟩ := C60_logits (n := 4) (by norm_num) fun v => if (![true, false, false, false] : Fin 4 → Bool) v then 1 else 0
    have e : (fun v => if (![true, false, false, false] : Fin 4 → Bool) v = true then ((1 : ℕ) : ℤ) else 0) =
        fun v => (((if (![true, false, false, false] : Fin 4 → Bool) v then 1 else 0 : ℕ)) : ℤ) := by
      funext v; split <;> simp
    refine ⟨k, fun v j => cg (penalised s.L ![true, false, false, false] 1) (mask ![true, false, false, false] fun v => Y v j) v, ?_, ?_⟩
    · unfold classification
      rw [dif_pos rfl]
      simp only [Fin.cast_eq_self]
      rw [e, a1]
      dsimp only
      unfold regression2
      rw [if_pos one_pos, dif_pos rfl]
      rfl
    · have := a2 0
      simp at this
      split at a3 <;> omega
  subst hv0
  refine ⟨g, S, s, cg, idx, ![true, false, false, false], X, K, X0, mu, h, hl, ha, hcg, hidx, hB, hfar, ⟨0, rfl⟩, hmu0, hmu, hX0, h1, ?_⟩
  rw [h2 1]; norm_num

end PyGSP
