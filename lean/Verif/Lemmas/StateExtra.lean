import Verif.Lemmas.Fourier

namespace PyGSP

open Matrix Spec

variable {n : ℕ}

/-- A symmetric matrix whose eigenvalues are at most `B` has its quadratic form bounded by `B`. -/
theorem quad_le_of_eig_le {L : Matrix (Fin n) (Fin n) ℝ} (hL : ∀ i j, L i j = L j i) {B : ℝ}
    (h : ∀ l, IsEigenvalue L l → l ≤ B) (x : Fin n → ℝ) : x ⬝ᵥ (L *ᵥ x) ≤ B * (x ⬝ᵥ x) := by
  obtain ⟨e, U, hE, -⟩ := exists_eigh L hL
  have hUU : U * Uᵀ = 1 := mul_eq_one_comm.1 hE.orthonormal
  obtain ⟨c, hcdef⟩ : ∃ c, c = Uᵀ *ᵥ x := ⟨_, rfl⟩
  have hx : U *ᵥ c = x := by rw [hcdef, Matrix.mulVec_mulVec, hUU, Matrix.one_mulVec]
  have h1 : x ⬝ᵥ (L *ᵥ x) = ∑ j, e j * c j ^ 2 := by
    have : L *ᵥ x = U *ᵥ (Matrix.diagonal e *ᵥ c) := by
      conv_lhs => rw [← hx]
      rw [Matrix.mulVec_mulVec, hE.eig, Matrix.mulVec_mulVec]
    rw [this, Matrix.dotProduct_mulVec, ← Matrix.mulVec_transpose, ← hcdef]
    simp only [dotProduct, Matrix.mulVec_diagonal]
    exact Finset.sum_congr rfl fun j _ => by ring
  have h2 : x ⬝ᵥ x = ∑ j, c j ^ 2 := by
    nth_rewrite 2 [← hx]
    rw [Matrix.dotProduct_mulVec, ← Matrix.mulVec_transpose, ← hcdef]
    simp only [dotProduct]
    exact Finset.sum_congr rfl fun j _ => by ring
  rw [h1, h2, Finset.mul_sum]
  exact Finset.sum_le_sum fun j _ => mul_le_mul_of_nonneg_right (h _ (hE.isEigenvalue j)) (sq_nonneg _)

namespace GState

variable {S : Solvers n}

/-! ### the structure never changes -/

theorem isDirected_base (s : GState n) : s.isDirected.2.base = s.base := by
  unfold isDirected; split <;> rfl

theorem getDw_base (s : GState n) : s.getDw.2.base = s.base := by
  unfold getDw; split
  · rfl
  · exact isDirected_base s

theorem getD_base (s : GState n) : s.getD.2.base = s.base := by
  unfold getD; split
  · rfl
  · exact isDirected_base s

theorem getA_base (s : GState n) : s.getA.2.base = s.base := by
  unfold getA; split <;> rfl

theorem isConnected_base (s : GState n) (pop : Pop n) : (s.isConnected pop).2.base = s.base := by
  unfold isConnected; split
  · rfl
  · simp only
    split <;> exact isDirected_base s

theorem getEdgeList_base (s : GState n) : s.getEdgeList.2.base = s.base := isDirected_base s

theorem computeLaplacian_base (s : GState n) (lt : LapType) : (s.computeLaplacian lt).2.base = s.base := by
  unfold computeLaplacian
  simp only
  have h : (({ (if lt ≠ s.lapType then { s with lmax := none, basis := none, coherence := none, D := none } else s)
      with lapType := lt } : GState n).isDirected.2).base = s.base := by
    rw [isDirected_base]; simp only; split <;> rfl
  cases lt
  · simp only; rw [getDw_base]; exact h
  · simp only; rw [getDw_base]; exact h
  · exact h

theorem edgeBounds_base (s : GState n) (dw : Fin n → ℝ) : (s.edgeBounds dw).2.base = s.base := by
  unfold edgeBounds
  split
  · simp only
    split
    · exact getEdgeList_base s
    · split <;> exact getEdgeList_base s
  · rfl

theorem upperBound_base (s : GState n) : s.upperBound.2.base = s.base := by
  unfold upperBound
  simp only
  split
  · rfl
  · split
    · rfl
    · split
      · exact getDw_base s
      · split
        · rw [edgeBounds_base, getDw_base]
        · split <;> rw [isDirected_base, edgeBounds_base, getDw_base]
  · rfl

theorem estimateLmax_base (S : Solvers n) (m : LmaxMethod) (s : GState n) : (s.estimateLmax S m).2.base = s.base := by
  unfold estimateLmax
  split
  · rfl
  · cases m
    · simp only
      split
      · rfl
      · split
        · rfl
        · split
          · rw [upperBound_base]
          · split
            · show (upperBound _).2.base = _
              rw [upperBound_base]
            · rw [upperBound_base]
    · simp only
      split
      · rw [upperBound_base]
      · show (upperBound _).2.base = _
        rw [upperBound_base]
    · rfl
    · rfl

theorem getLmax_base (S : Solvers n) (s : GState n) : (s.getLmax S).2.base = s.base := by
  unfold getLmax
  split
  · rfl
  · simp only; split <;> exact estimateLmax_base S _ s

theorem checkBasis_base (ne : ℕ) (b : Basis n) (hk : 0 < b.k) (s : GState n) :
    (s.checkBasis ne b hk).2.base = s.base := by
  unfold checkBasis
  simp only
  split
  · split
    · rw [upperBound_base]
    · split
      · split
        · split
          · split
            · show (upperBound _).2.base = _
              rw [upperBound_base]
            · rw [upperBound_base]
          · rw [upperBound_base]
        · rw [upperBound_base]
      · rw [upperBound_base]
  · rfl

theorem computeFourierBasis_base (S : Solvers n) (k : Option ℕ) (s : GState n) :
    (s.computeFourierBasis S k).2.base = s.base := by
  unfold computeFourierBasis
  simp only
  split
  · rfl
  · split
    · rfl
    · split
      · rw [checkBasis_base]
      · rfl

theorem computeDiff_base (s : GState n) : s.computeDiff.2.base = s.base := by
  unfold computeDiff
  simp only
  split
  · exact getEdgeList_base s
  · split
    · exact getEdgeList_base s
    · simp only
      rw [isDirected_base]
      split
      · rw [getDw_base]; exact getEdgeList_base s
      · exact getEdgeList_base s

/-! ### only `compute_laplacian` changes `L` -/

theorem isDirected_L (s : GState n) : s.isDirected.2.L = s.L := by
  unfold isDirected; split <;> rfl

theorem getDw_L (s : GState n) : s.getDw.2.L = s.L := by
  unfold getDw; split
  · rfl
  · exact isDirected_L s

theorem edgeBounds_L (s : GState n) (dw : Fin n → ℝ) : (s.edgeBounds dw).2.L = s.L := by
  unfold edgeBounds
  split
  · simp only
    split
    · exact isDirected_L s
    · split <;> exact isDirected_L s
  · rfl

theorem upperBound_L (s : GState n) : s.upperBound.2.L = s.L := by
  unfold upperBound
  simp only
  split
  · rfl
  · split
    · rfl
    · split
      · exact getDw_L s
      · split
        · rw [edgeBounds_L, getDw_L]
        · split <;> rw [isDirected_L, edgeBounds_L, getDw_L]
  · rfl

theorem checkBasis_L (ne : ℕ) (b : Basis n) (hk : 0 < b.k) (s : GState n) :
    (s.checkBasis ne b hk).2.L = s.L := by
  unfold checkBasis
  simp only
  split
  · split
    · rw [upperBound_L]
    · split
      · split
        · split
          · split
            · show (upperBound _).2.L = _
              rw [upperBound_L]
            · rw [upperBound_L]
          · rw [upperBound_L]
        · rw [upperBound_L]
      · rw [upperBound_L]
  · rfl

theorem computeFourierBasis_L (S : Solvers n) (k : Option ℕ) (s : GState n) :
    (s.computeFourierBasis S k).2.L = s.L := by
  unfold computeFourierBasis
  simp only
  split
  · rfl
  · split
    · rfl
    · split
      · rw [checkBasis_L]
      · rfl

theorem estimateLmax_L (S : Solvers n) (m : LmaxMethod) (s : GState n) : (s.estimateLmax S m).2.L = s.L := by
  unfold estimateLmax
  split
  · rfl
  · cases m
    · simp only
      split
      · rfl
      · split
        · rfl
        · split
          · rw [upperBound_L]
          · split
            · show (upperBound _).2.L = _
              rw [upperBound_L]
            · rw [upperBound_L]
    · simp only
      split
      · rw [upperBound_L]
      · show (upperBound _).2.L = _
        rw [upperBound_L]
    · rfl
    · rfl

theorem run_base (S : Solvers n) (op : Op n) (s : GState n) : (op.run S s).2.base = s.base := by
  cases op with
  | isDirected => exact isDirected_base s
  | isConnected pop => exact isConnected_base s pop
  | getA => exact getA_base s
  | getD => exact getD_base s
  | getDw => exact getDw_base s
  | getEdgeList => exact getEdgeList_base s
  | computeLaplacian lt => exact computeLaplacian_base s lt
  | estimateLmax m => exact estimateLmax_base S m s
  | getLmax => exact getLmax_base S s
  | computeFourierBasis k => exact computeFourierBasis_base S k s
  | getBasis =>
    simp only [Op.run]; unfold getBasis; split
    · rfl
    · simp only; split <;> exact computeFourierBasis_base S _ s
  | getCoherence =>
    simp only [Op.run]; unfold getCoherence; split
    · rfl
    · simp only; split <;> exact computeFourierBasis_base S _ s
  | computeDiff => exact computeDiff_base s
  | getDiff =>
    simp only [Op.run]; unfold getDiff; split
    · rfl
    · simp only; split <;> exact computeDiff_base s
  | setW M => rfl

theorem runAll_base (S : Solvers n) (ops : List (Op n)) (s : GState n) : (runAll S ops s).base = s.base := by
  induction ops generalizing s with
  | nil => rfl
  | cons op ops ih => exact (ih _).trans (run_base S op s)

theorem ofGraph_base (g : Graph n ℝ) : (ofGraph g).base = g := computeLaplacian_base _ _

/-! ### the Laplacian type only changes through `compute_laplacian`; availability of `lmax` -/

/-- `lmax` is available unless another method than lanczos was tried last -/
def LmaxReady (s : GState n) : Prop := s.lmaxMethod = some .lanczos → s.lmax.isSome

theorem estimateLmax_ready {S : Solvers n} (hS : Sound S) (hc : ∀ t L, (S.eigshLM t L).isSome) {s : GState n}
    (hi : Inv S s) (hW : NonnegW s.W.dense) (hn : 2 ≤ n) (hlt : Known s.lapType) (hr : LmaxReady s) (m : LmaxMethod) :
    LmaxReady (s.estimateLmax S m).2 ∧ (s.estimateLmax S m).2.lapType = s.lapType ∧
    (m = .lanczos → (s.estimateLmax S m).1 = .ok () ∧ (s.estimateLmax S m).2.lmax.isSome) := by
  unfold estimateLmax
  split
  · rename_i h
    refine ⟨hr, rfl, fun hm => ⟨rfl, hr (by rw [h, hm])⟩⟩
  · set s1 : GState n := { s with lmaxMethod := some m } with hs1
    have hp1 : PureOK s1 := ⟨hi.2.1, hi.2.2, hi.2.3, hi.2.4, hi.2.5⟩
    obtain ⟨B, hB1, hB2⟩ := hi.bound hW (by omega) hlt
    cases m with
    | lanczos =>
      simp only
      rw [if_neg (by omega)]
      obtain ⟨r, hr'⟩ := Option.isSome_iff_exists.1 (hc s1.calls s1.L)
      rw [hr']
      simp only
      set s2 : GState n := { s1 with calls := s1.calls + 1 } with hs2
      obtain ⟨hu1, hu2⟩ := upperBound_spec (s := s2) ⟨hi.2.1, hi.2.2, hi.2.3, hi.2.4, hi.2.5⟩
      rw [hu1, show s2.cur = s.cur from rfl, hB1]
      simp only
      obtain ⟨x, hx, hq⟩ := hS.eigshLM (by omega) _ _ hi.L_symm _ hr'
      have hle : r ≤ B := by
        have := quad_le_of_eig_le hi.L_symm hB2 x
        rw [hq] at this
        exact le_of_mul_le_mul_right this (dot_self_pos hx)
      have hle2 : PyNum.le (.fin r) (PyNum.fin B + .fin (1 / 10 ^ 12)) = true := by
        show decide (r ≤ B + 1 / 10 ^ 12) = true
        rw [decide_eq_true_eq]
        have : (0 : ℝ) < 1 / 10 ^ 12 := by positivity
        linarith
      rw [if_pos hle2]
      exact ⟨fun _ => rfl, hu2.lapType, fun _ => ⟨rfl, rfl⟩⟩
    | bounds =>
      simp only
      obtain ⟨hu1, hu2⟩ := upperBound_spec (s := s1) hp1
      rw [hu1, show s1.cur = s.cur from rfl, hB1]
      refine ⟨fun _ => rfl, hu2.lapType, by simp⟩
    | fourier => exact ⟨by intro h; simp [hs1] at h, rfl, by simp⟩
    | other nm => exact ⟨by intro h; simp [hs1] at h, rfl, by simp⟩

theorem sim_ready {s s' : GState n} (h : Sim s s') (hr : LmaxReady s) : LmaxReady s' := by
  unfold LmaxReady; rw [h.lmaxMethod, h.lmax]; exact hr

theorem checkBasis_ready {s : GState n} (hp : PureOK s) (hr : LmaxReady s) (ne : ℕ) (b : Basis n) (hk : 0 < b.k) :
    LmaxReady (s.checkBasis ne b hk).2 ∧ (s.checkBasis ne b hk).2.lapType = s.lapType := by
  unfold checkBasis
  simp only
  split
  · rename_i h0
    set s1 : GState n := { s with basis := some ⟨b.k, Function.update b.e ⟨0, hk⟩ 0, Matrix.of fun i j =>
      if ∃ h : 0 < n, |b.U ⟨0, h⟩ ⟨0, hk⟩| < 0 ∧ i = ⟨0, h⟩ then -b.U i j else b.U i j⟩ } with hs1
    have hp1 : PureOK s1 := ⟨hp.1, hp.2, hp.3, hp.4, hp.5⟩
    obtain ⟨-, hu2⟩ := upperBound_spec hp1
    have hr1 : LmaxReady s1.upperBound.2 := sim_ready hu2 hr
    split
    · exact ⟨hr1, hu2.lapType⟩
    · split
      · split
        · split
          · split
            · exact ⟨fun _ => rfl, hu2.lapType⟩
            · exact ⟨hr1, hu2.lapType⟩
          · exact ⟨hr1, hu2.lapType⟩
        · exact ⟨hr1, hu2.lapType⟩
      · exact ⟨hr1, hu2.lapType⟩
  · exact ⟨hr, rfl⟩

theorem computeFourierBasis_ready {S : Solvers n} {s : GState n} (hp : PureOK s) (hr : LmaxReady s) (k : Option ℕ) :
    LmaxReady (s.computeFourierBasis S k).2 ∧ (s.computeFourierBasis S k).2.lapType = s.lapType := by
  unfold computeFourierBasis
  simp only
  split
  · exact ⟨hr, rfl⟩
  · split
    · exact ⟨hr, rfl⟩
    · rename_i b hb
      split
      · rename_i hk
        exact checkBasis_ready (s := { s with basis := some b, calls := s.calls + 1 })
          ⟨hp.1, hp.2, hp.3, hp.4, hp.5⟩ hr _ _ hk
      · exact ⟨hr, rfl⟩

theorem computeDiff_keeps {s : GState n} (hp : PureOK s) :
    s.computeDiff.2.lapType = s.lapType ∧ s.computeDiff.2.lmax = s.lmax ∧
    s.computeDiff.2.lmaxMethod = s.lmaxMethod := by
  obtain ⟨h1, h2⟩ := getEdgeList_spec hp
  unfold computeDiff
  simp only
  split
  · exact ⟨h2.lapType, h2.lmax, h2.lmaxMethod⟩
  · split
    · exact ⟨h2.lapType, h2.lmax, h2.lmaxMethod⟩
    · split
      · have h3 := (getDw_spec h2.pure).2
        have h := (h2.trans h3).trans (isDirected_spec h3.pure).2
        exact ⟨h.lapType, h.lmax, h.lmaxMethod⟩
      · have h := h2.trans (isDirected_spec h2.pure).2
        exact ⟨h.lapType, h.lmax, h.lmaxMethod⟩

theorem computeDiff_ready {s : GState n} (hi : Inv S s) (hr : LmaxReady s) :
    LmaxReady s.computeDiff.2 ∧ s.computeDiff.2.lapType = s.lapType := by
  obtain ⟨h1, h2, h3⟩ := computeDiff_keeps hi.pure
  refine ⟨?_, h1⟩
  unfold LmaxReady
  rw [h2, h3]
  exact hr

theorem upperBound_lapType {s : GState n} (h : PureOK s) : s.upperBound.2.lapType = s.lapType :=
  (upperBound_spec h).2.lapType

theorem estimateLmax_lapType {S : Solvers n} {s : GState n} (h : PureOK s) (m : LmaxMethod) :
    (s.estimateLmax S m).2.lapType = s.lapType := by
  unfold estimateLmax
  split
  · rfl
  · cases m
    · simp only
      split
      · rfl
      · split
        · rfl
        · have := upperBound_lapType (s := { s with lmaxMethod := some .lanczos, calls := s.calls + 1 })
            ⟨h.1, h.2, h.3, h.4, h.5⟩
          split
          · exact this
          · split <;> exact this
    · simp only
      have := upperBound_lapType (s := { s with lmaxMethod := some .bounds }) ⟨h.1, h.2, h.3, h.4, h.5⟩
      split <;> exact this
    · rfl
    · rfl

theorem estimateLmax_method {S : Solvers n} {s : GState n} (h : PureOK s) (m : LmaxMethod) :
    (s.estimateLmax S m).2.lmaxMethod = some m := by
  unfold estimateLmax
  split
  · assumption
  · cases m
    · simp only
      split
      · rfl
      · split
        · rfl
        · have := (upperBound_spec (s := { s with lmaxMethod := some .lanczos, calls := s.calls + 1 })
            ⟨h.1, h.2, h.3, h.4, h.5⟩).2.lmaxMethod
          split
          · exact this
          · split <;> exact this
    · simp only
      have := (upperBound_spec (s := { s with lmaxMethod := some .bounds }) ⟨h.1, h.2, h.3, h.4, h.5⟩).2.lmaxMethod
      split <;> exact this
    · rfl
    · rfl

theorem checkBasis_basis {s : GState n} (hp : PureOK s) (ne : ℕ) (b : Basis n) (hk : 0 < b.k)
    (hb : s.basis = some b) : ∃ b', (s.checkBasis ne b hk).2.basis = some b' ∧ b'.k = b.k := by
  unfold checkBasis
  simp only
  split
  · set s1 : GState n := { s with basis := some ⟨b.k, Function.update b.e ⟨0, hk⟩ 0, Matrix.of fun i j =>
      if ∃ h : 0 < n, |b.U ⟨0, h⟩ ⟨0, hk⟩| < 0 ∧ i = ⟨0, h⟩ then -b.U i j else b.U i j⟩ } with hs1
    have h := (upperBound_spec (s := s1) ⟨hp.1, hp.2, hp.3, hp.4, hp.5⟩).2.basis
    have h' : s1.upperBound.2.basis = some ⟨b.k, Function.update b.e ⟨0, hk⟩ 0, Matrix.of fun i j =>
      if ∃ h : 0 < n, |b.U ⟨0, h⟩ ⟨0, hk⟩| < 0 ∧ i = ⟨0, h⟩ then -b.U i j else b.U i j⟩ := h
    split
    · exact ⟨_, h', rfl⟩
    · split
      · split
        · split
          · split <;> exact ⟨_, h', rfl⟩
          · exact ⟨_, h', rfl⟩
        · exact ⟨_, h', rfl⟩
      · exact ⟨_, h', rfl⟩
  · exact ⟨b, hb, rfl⟩

theorem checkBasis_lapType {s : GState n} (hp : PureOK s) (ne : ℕ) (b : Basis n) (hk : 0 < b.k) :
    (s.checkBasis ne b hk).2.lapType = s.lapType := by
  unfold checkBasis
  simp only
  split
  · set s1 : GState n := { s with basis := some ⟨b.k, Function.update b.e ⟨0, hk⟩ 0, Matrix.of fun i j =>
      if ∃ h : 0 < n, |b.U ⟨0, h⟩ ⟨0, hk⟩| < 0 ∧ i = ⟨0, h⟩ then -b.U i j else b.U i j⟩ } with hs1
    have h := upperBound_lapType (s := s1) ⟨hp.1, hp.2, hp.3, hp.4, hp.5⟩
    split
    · exact h
    · split
      · split
        · split
          · split <;> exact h
          · exact h
        · exact h
      · exact h
  · rfl

theorem computeFourierBasis_lapType {S : Solvers n} {s : GState n} (hp : PureOK s) (k : Option ℕ) :
    (s.computeFourierBasis S k).2.lapType = s.lapType := by
  unfold computeFourierBasis
  simp only
  split
  · rfl
  · split
    · rfl
    · rename_i b hb
      split
      · rename_i hk
        exact checkBasis_lapType (s := { s with basis := some b, calls := s.calls + 1 })
          ⟨hp.1, hp.2, hp.3, hp.4, hp.5⟩ _ _ hk
      · rfl

theorem computeLaplacian_lapType {S : Solvers n} {s : GState n} (hi : Inv S s) (lt : LapType) :
    (s.computeLaplacian lt).2.lapType = lt := by
  unfold computeLaplacian
  simp only
  set s1 : GState n := { (if lt ≠ s.lapType then
      { s with lmax := none, basis := none, coherence := none, D := none } else s) with lapType := lt } with hs1
  have hp1 : PureOK s1 := by
    have := hi.pure
    rw [hs1]
    simp only
    split <;> exact ⟨this.1, this.2, this.3, this.4, this.5⟩
  have h2 := (isDirected_spec hp1).2
  have h4 := h2.trans (getDw_spec h2.pure).2
  cases lt
  · exact h4.lapType
  · exact h4.lapType
  · exact h2.lapType

/-- Recomputing the Laplacian with the current type changes nothing but caches that only depend on `W`. -/
theorem computeLaplacian_same {s : GState n} (hi : Inv S s) {lt : LapType} (hlt : s.lapType = lt) (hk : Known lt) :
    (s.computeLaplacian lt).1 = .ok () ∧ Sim s (s.computeLaplacian lt).2 := by
  have e : ({ s with lapType := lt } : GState n) = s := by rw [← hlt]
  unfold computeLaplacian
  simp only [hlt, ne_eq, not_true_eq_false, if_false]
  rw [e]
  obtain ⟨h1, h2⟩ := isDirected_spec hi.pure
  obtain ⟨h3, h4⟩ := getDw_spec h2.pure
  have h := h2.trans h4
  have hW : s.isDirected.2.W = s.W := congrArg Graph.W h2.base
  obtain ⟨lt', hk', hL, hl⟩ := hi.lap
  have : lt' = lt := (hl (hlt ▸ hk)).trans hlt
  subst this
  have hp := h.pure
  rcases hk with rfl | rfl
  · refine ⟨rfl, ⟨h.1, h.2, ?_, h.4, h.5, h.6, h.7, h.8, h.9, ⟨hp.1, hp.2, hp.3, hp.4, hp.5⟩⟩⟩
    simp only
    rw [h3, hW, h1, lapWith_eq]
    simpa [laplacian] using hL
  · refine ⟨rfl, ⟨h.1, h.2, ?_, h.4, h.5, h.6, h.7, h.8, h.9, ⟨hp.1, hp.2, hp.3, hp.4, hp.5⟩⟩⟩
    simp only
    rw [h3, hW, h1, lapWith_eq]
    simp only [laplacian, Except.ok.injEq] at hL
    exact hL

/-- `ops` never changes the Laplacian type `lt`. -/
def Keeps (lt : LapType) : Op n → Prop
  | .computeLaplacian lt' => lt' = lt
  | _ => True

theorem run_ready {S : Solvers n} (hS : Sound S) (hc : ∀ t L, (S.eigshLM t L).isSome) {s : GState n}
    (hi : Inv S s) (hW : NonnegW s.W.dense) (hn : 2 ≤ n) (hlt : Known s.lapType) (hr : LmaxReady s)
    (op : Op n) (hop : Keeps s.lapType op) :
    LmaxReady (op.run S s).2 ∧ (op.run S s).2.lapType = s.lapType := by
  have hsim : ∀ {s'}, Sim s s' → LmaxReady s' ∧ s'.lapType = s.lapType := fun h => ⟨sim_ready h hr, h.lapType⟩
  cases op with
  | isDirected => exact hsim (isDirected_spec hi.pure).2
  | isConnected pop => exact hsim (isConnected_sim hi.pure hi.built pop)
  | getA => exact hsim (getA_spec hi.pure).2
  | getD => exact hsim (getD_spec hi.pure).2
  | getDw => exact hsim (getDw_spec hi.pure).2
  | getEdgeList => exact hsim (getEdgeList_spec hi.pure).2
  | computeLaplacian lt =>
    simp only [Keeps] at hop
    exact hsim (computeLaplacian_same hi hop.symm (hop ▸ hlt)).2
  | estimateLmax m =>
    have h := estimateLmax_ready hS hc hi hW hn hlt hr m
    exact ⟨h.1, h.2.1⟩
  | getLmax =>
    simp only [Op.run]
    unfold getLmax
    split
    · exact ⟨hr, rfl⟩
    · have h := estimateLmax_ready hS hc hi hW hn hlt hr .lanczos
      simp only
      split <;> exact ⟨h.1, h.2.1⟩
  | computeFourierBasis k => exact computeFourierBasis_ready hi.pure hr k
  | getBasis =>
    simp only [Op.run]
    unfold getBasis
    split
    · exact ⟨hr, rfl⟩
    · have h := computeFourierBasis_ready (S := S) hi.pure hr none
      simp only
      split <;> exact h
  | getCoherence =>
    simp only [Op.run]
    unfold getCoherence
    split
    · exact ⟨hr, rfl⟩
    · have h := computeFourierBasis_ready (S := S) hi.pure hr none
      simp only
      split <;> exact h
  | computeDiff => exact computeDiff_ready hi hr
  | getDiff =>
    simp only [Op.run]
    unfold getDiff
    split
    · exact ⟨hr, rfl⟩
    · have h := computeDiff_ready hi hr
      simp only
      split <;> exact h
  | setW M => exact ⟨hr, rfl⟩

theorem runAll_ready {S : Solvers n} (hS : Sound S) (hc : ∀ t L, (S.eigshLM t L).isSome) (ops : List (Op n))
    {s : GState n} (hi : Inv S s) (hW : NonnegW s.W.dense) (hn : 2 ≤ n) (hlt : Known s.lapType) (hr : LmaxReady s)
    (hop : ∀ op ∈ ops, Keeps s.lapType op) :
    LmaxReady (runAll S ops s) ∧ (runAll S ops s).lapType = s.lapType := by
  induction ops generalizing s with
  | nil => exact ⟨hr, rfl⟩
  | cons op ops ih =>
    obtain ⟨h1, h2⟩ := run_ready hS hc hi hW hn hlt hr op (hop op List.mem_cons_self)
    have hb := run_base S op s
    obtain ⟨h3, h4⟩ := ih (run_inv hS hi op) (by unfold GState.W; rw [hb]; exact hW) (h2 ▸ hlt) h1
      (fun o ho => h2 ▸ hop o (List.mem_cons_of_mem _ ho))
    exact ⟨h3, h4.trans h2⟩

end GState

end PyGSP
