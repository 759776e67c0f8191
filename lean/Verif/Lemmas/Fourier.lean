import Verif.Lemmas.GraphState

namespace PyGSP

open Matrix Spec

variable {n : ℕ}

/-- The Laplacian of non-negative weights is positive semi-definite and singular. -/
theorem laplacian_psd {W : Sp n n ℝ} (hW : NonnegW W.dense) {lt : LapType} {L} (h : laplacian W lt = .ok L) :
    PSD L := by
  cases lt
  · obtain ⟨L', h1, h2⟩ := C11_psd W hW
    rw [h] at h1; cases h1; exact h2
  · obtain ⟨L', h1, -, -, -, h2, -⟩ := C12_normalized W hW
    rw [h] at h1; cases h1; exact h2
  · simp [laplacian] at h

theorem combLap_const (M : Matrix (Fin n) (Fin n) ℝ) (c : ℝ) : combLap M *ᵥ (fun _ => c) = 0 := by
  ext i
  rw [combLap_mulVec]
  simp only [Pi.zero_apply, ← Finset.sum_mul, sum_wsym]
  ring

theorem laplacian_zero_eigenvalue {W : Sp n n ℝ} (hW : NonnegW W.dense) (hn : 0 < n) {lt : LapType} {L}
    (h : laplacian W lt = .ok L) : IsEigenvalue L 0 := by
  cases lt
  · rw [laplacian_comb] at h
    cases h
    refine ⟨fun _ => 1, ?_, ?_⟩
    · intro h; have := congrFun h ⟨0, hn⟩; simp at this
    · rw [combLap_const, zero_smul]
  · rw [laplacian_norm W hW] at h
    cases h
    by_cases hiso : ∃ i, wdeg W.dense i = 0
    · obtain ⟨i, hi⟩ := hiso
      refine ⟨Pi.single i 1, ?_, ?_⟩
      · intro h; have := congrFun h i; simp at this
      · ext j
        rw [scaled_mulVec]
        have : (fun j => nscale W.dense j * (Pi.single i 1 : Fin n → ℝ) j) = 0 := by
          funext j
          by_cases hj : j = i
          · subst hj; simp [nscale, hi]
          · simp [hj]
        rw [this, Matrix.mulVec_zero]
        simp
    · push Not at hiso
      have hs : ∀ i, Real.sqrt (wdeg W.dense i) ≠ 0 := fun i => by
        rw [Real.sqrt_ne_zero (wdeg_nonneg hW i)]; exact hiso i
      refine ⟨fun i => Real.sqrt (wdeg W.dense i), ?_, ?_⟩
      · intro h; exact hs ⟨0, hn⟩ (congrFun h ⟨0, hn⟩)
      · ext j
        rw [scaled_mulVec]
        have : (fun j => nscale W.dense j * Real.sqrt (wdeg W.dense j)) = fun _ => 1 := by
          funext j
          unfold nscale
          rw [if_neg (hiso j)]
          exact one_div_mul_cancel (hs j)
        rw [this, combLap_const]
        simp
  · simp [laplacian] at h

/-- for a positive semi-definite singular matrix the selected smallest eigenvalue is 0 -/
theorem first_eig_zero {k : ℕ} {L : Matrix (Fin n) (Fin n) ℝ} (hpsd : PSD L) (h0 : IsEigenvalue L 0) {e : Fin k → ℝ}
    {U : Matrix (Fin n) (Fin k) ℝ} (h : IsEigenPairs L e U) (hmono : Monotone e)
    (hmin : 0 < k → ∃ j, ∀ l, IsEigenvalue L l → |e j| ≤ |l|) (hk : 0 < k) : e ⟨0, hk⟩ = 0 := by
  obtain ⟨j, hj⟩ := hmin hk
  have h1 := hj 0 h0
  rw [abs_zero] at h1
  have h2 : e j = 0 := abs_eq_zero.1 (le_antisymm h1 (abs_nonneg _))
  have h3 : e ⟨0, hk⟩ ≤ e j := hmono (Fin.mk_le_of_le_val (Nat.zero_le _))
  have h4 := eig_nonneg hpsd (h.isEigenvalue ⟨0, hk⟩)
  linarith

namespace GState

variable {S : Solvers n}

/-- With non-negative weights a cached basis is an exact eigendecomposition. -/
theorem BasisOK.exact {L : Matrix (Fin n) (Fin n) ℝ} (hpsd : PSD L) (h0 : 0 < n → IsEigenvalue L 0) {b : Basis n}
    (hb : BasisOK L b) : IsEigenPairs L b.e b.U ∧ Monotone b.e ∧ (∀ j, 0 ≤ b.e j) ∧
      ∀ h : 0 < b.k, b.e ⟨0, h⟩ = 0 := by
  obtain ⟨e0, h1, h2, h3, h4⟩ := hb
  have hz : ∀ h : 0 < b.k, e0 ⟨0, h⟩ = 0 := fun h =>
    first_eig_zero hpsd (h0 (Spec.IsEigenPairs.rows_pos h1 h)) h1 h2 h3 h
  have he : b.e = e0 := by
    rcases h4 with h4 | ⟨h, -, h4⟩
    · exact h4
    · rw [h4]
      funext j
      by_cases hj : j = ⟨0, h⟩
      · subst hj; simp [hz]
      · simp [hj]
  rw [he]
  exact ⟨h1, h2, fun j => eig_nonneg hpsd (h1.isEigenvalue j), hz⟩

theorem Inv.psd {s : GState n} (hi : Inv S s) (hW : NonnegW s.W.dense) : PSD s.L := by
  obtain ⟨lt, -, h, -⟩ := hi.lap
  exact laplacian_psd hW h

theorem Inv.zero {s : GState n} (hi : Inv S s) (hW : NonnegW s.W.dense) (hn : 0 < n) : IsEigenvalue s.L 0 := by
  obtain ⟨lt, -, h, -⟩ := hi.lap
  exact laplacian_zero_eigenvalue hW hn h

theorem Inv.bound {s : GState n} (hi : Inv S s) (hW : NonnegW s.W.dense) (hn : 0 < n) (hk : Known s.lapType) :
    ∃ B, s.cur.upperBound = .ok (.fin B) ∧ ∀ l, IsEigenvalue s.L l → l ≤ B := by
  obtain ⟨lt, h1, h2, h3⟩ := hi.lap
  have hlt := h3 hk
  subst hlt
  obtain ⟨B, L, hB, hL, hle⟩ := C15_upper_bound s.cur (hi.built.withLapType _ hk) hW hn
  change laplacian s.W s.lapType = .ok L at hL
  rw [h2] at hL
  cases hL
  exact ⟨B, hB, hle⟩

/-- What `compute_fourier_basis` does on non-negative weights when no sufficient basis is cached. -/
theorem computeFourierBasis_ok {S : Solvers n} (hS : Sound S) {s : GState n} (hi : Inv S s) (hW : NonnegW s.W.dense)
    (hn : 0 < n) (hlt : Known s.lapType) (k : Option ℕ) (hk : 0 < k.getD n ∧ k.getD n ≤ n)
    (hconv : k.getD n = n ∨ ∀ t L, (S.eigshSM (k.getD n) t L).isSome)
    (hnb : s.hasBasis (k.getD n) = false) :
    (s.computeFourierBasis S k).1 = .ok () ∧ ∃ b, (s.computeFourierBasis S k).2.basis = some b ∧ b.k = k.getD n ∧
      (s.computeFourierBasis S k).2.L = s.L ∧ (s.computeFourierBasis S k).2.base = s.base ∧
      (s.computeFourierBasis S k).2.lapType = s.lapType ∧
      (k.getD n = n → ∃ h : 0 < b.k, (s.computeFourierBasis S k).2.lmax = some (.fin (b.e ⟨b.k - 1, by omega⟩)) ∧
        (s.computeFourierBasis S k).2.lmaxMethod = some .fourier ∧
        (s.computeFourierBasis S k).2.coherence.isSome) := by
  obtain ⟨b, hb⟩ : ∃ b, s.decompose S (k.getD n) = .ok b := by
    unfold decompose
    split
    · exact ⟨_, rfl⟩
    · rename_i h
      rw [if_neg (by omega), if_neg (by omega)]
      rcases hconv with h' | h'
      · exact absurd h' h
      · obtain ⟨r, hr⟩ := Option.isSome_iff_exists.1 (h' s.calls s.L)
        rw [hr]; exact ⟨_, rfl⟩
  obtain ⟨h1, h2, h3, h4⟩ := decompose_ok hS hi hb
  have hbk : 0 < b.k := by omega
  have hz := first_eig_zero (hi.psd hW) (hi.zero hW hn) h2 h3 h4 hbk
  have hup : Function.update b.e ⟨0, hbk⟩ 0 = b.e := by rw [← hz]; exact Function.update_eq_self _ _
  have hnf : ∀ b', s.basis = some b' → b'.k ≠ n := by
    intro b' hb' hkn
    simp [hasBasis, hb'] at hnb
    omega
  have hi1 := hi.setBasis b ⟨b.e, h2, h3, h4, .inl rfl⟩ hnf (s.calls + 1)
  set s1 : GState n := { s with basis := some b, calls := s.calls + 1 } with hs1
  have hcomp : s.computeFourierBasis S k = s1.checkBasis (k.getD n) b hbk := by
    unfold computeFourierBasis
    simp only
    rw [hnb]
    simp only [Bool.false_eq_true, if_false]
    rw [hb]
    simp only
    rw [dif_pos hbk]
  rw [hcomp]
  -- the successive checks
  unfold checkBasis
  rw [signFix_eq, hup]
  rw [if_pos (by rw [hz]; norm_num)]
  simp only
  set s2 : GState n := { s1 with basis := some ⟨b.k, b.e, b.U⟩ } with hs2
  have hp2 : PureOK s2 := hi1.pure
  obtain ⟨hu1, hu2⟩ := upperBound_spec hp2
  obtain ⟨B, hB1, hB2⟩ := hi.bound hW hn hlt
  have hcur : s2.cur = s.cur := rfl
  rw [hu1, hcur, hB1]
  simp only
  have hlast : b.e ⟨b.k - 1, by omega⟩ ≤ B := hB2 _ (h2.isEigenvalue _)
  have hle : PyNum.le (.fin (b.e ⟨b.k - 1, by omega⟩)) (PyNum.fin B + .fin (1 / 10 ^ 5)) = true := by
    show decide (b.e ⟨b.k - 1, by omega⟩ ≤ B + 1 / 10 ^ 5) = true
    rw [decide_eq_true_eq]
    have : (0 : ℝ) < 1 / 10 ^ 5 := by positivity
    linarith
  rw [if_pos hle, if_pos (fun i => h3 (Fin.le_def.2 (by have := i.2; simp only; omega)))]
  by_cases hnn : k.getD n = n
  · rw [if_pos hnn]
    obtain ⟨c, hc1, hc2, hc3⟩ := npMax_abs hn hbk b.U
    rw [hc1]
    exact ⟨rfl, ⟨b.k, b.e, b.U⟩, hu2.basis, h1, hu2.L, hu2.base, hu2.lapType, fun _ => ⟨hbk, rfl, rfl, rfl⟩⟩
  · rw [if_neg hnn]
    exact ⟨rfl, ⟨b.k, b.e, b.U⟩, hu2.basis, h1, hu2.L, hu2.base, hu2.lapType, fun h => absurd h hnn⟩

end GState

end PyGSP
