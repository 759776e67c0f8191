import Verif.Props.State
import Verif.Lemmas.LiveFilter

/-!
# Where the stored eigenvectors come from

After any history of calls, a stored basis with fewer columns than vertices holds what `eigsh` returned for the current Laplacian.
-/

namespace PyGSP

open Matrix Spec

namespace GState

variable {n : ℕ} {S : Solvers n}

/-- The stored basis is complete, or the answer of the partial solver on the current Laplacian. -/
def Prov (S : Solvers n) (s : GState n) : Prop :=
  Known s.lapType → ∀ b, s.basis = some b → b.k = n ∨ (0 < b.k ∧ b.k < n ∧ ∃ t e0, S.eigshSM b.k t s.L = some (e0, b.U))

theorem decompose_from {s : GState n} {ne : ℕ} {b : Basis n} (h : s.decompose S ne = .ok b) :
    b.k = n ∨ (0 < b.k ∧ b.k < n ∧ ∃ t, S.eigshSM b.k t s.L = some (b.e, b.U)) := by
  unfold decompose at h
  split at h
  · cases h
    exact .inl rfl
  · split at h
    · simp at h
    · split at h
      · simp at h
      · rename_i h1 h2 h3
        split at h
        · simp at h
        · rename_i r hr
          cases h
          exact .inr ⟨by simp only; omega, by simp only; omega, _, hr⟩

theorem upperBound_basis {s : GState n} (h : PureOK s) : s.upperBound.2.basis = s.basis := (upperBound_spec h).2.basis

theorem checkBasis_from {s : GState n} (hp : PureOK s) {ne : ℕ} {b : Basis n} (hb : s.basis = some b) (hk : 0 < b.k) :
    ∃ e, (s.checkBasis ne b hk).2.basis = some ⟨b.k, e, b.U⟩ := by
  unfold checkBasis
  rw [signFix_eq]
  simp only
  split
  · set s1 : GState n := { s with basis := some ⟨b.k, Function.update b.e ⟨0, hk⟩ 0, b.U⟩ } with hs1
    have hp1 : PureOK s1 := ⟨hp.1, hp.2, hp.3, hp.4, hp.5⟩
    have h1 : s1.upperBound.2.basis = some ⟨b.k, Function.update b.e ⟨0, hk⟩ 0, b.U⟩ := by rw [upperBound_basis hp1]
    refine ⟨Function.update b.e ⟨0, hk⟩ 0, ?_⟩
    split
    · exact h1
    · split
      · split
        · split
          · split <;> exact h1
          · exact h1
        · exact h1
      · exact h1
  · exact ⟨b.e, hb⟩

theorem fourier_from {s : GState n} (hp : PureOK s) (k : Option ℕ) :
    (s.computeFourierBasis S k).2.basis = s.basis ∨ ∃ b e, s.decompose S (k.getD n) = .ok b ∧ (s.computeFourierBasis S k).2.basis = some ⟨b.k, e, b.U⟩ := by
  unfold computeFourierBasis
  simp only
  split
  · exact .inl rfl
  · split
    · exact .inl rfl
    · rename_i b hb
      refine .inr ⟨b, ?_⟩
      split
      · rename_i hk
        obtain ⟨e, he⟩ := checkBasis_from (s := { s with basis := some b, calls := s.calls + 1 }) ⟨hp.1, hp.2, hp.3, hp.4, hp.5⟩ (ne := k.getD n) rfl hk
        exact ⟨e, hb, he⟩
      · exact ⟨b.e, hb, rfl⟩

theorem computeDiff_basis {s : GState n} (hp : PureOK s) : s.computeDiff.2.basis = s.basis := by
  have hdir : ∀ s : GState n, s.isDirected.2.basis = s.basis := fun s => by unfold GState.isDirected; split <;> rfl
  have hdw : ∀ s : GState n, s.getDw.2.basis = s.basis := fun s => by
    unfold getDw
    split
    · rfl
    · exact hdir s
  have he : s.getEdgeList.2.basis = s.basis := (getEdgeList_spec hp).2.basis
  unfold computeDiff
  simp only
  split
  · exact he
  · split
    · exact he
    · split <;> simp only [hdir, hdw, he]

theorem computeLaplacian_basis {s : GState n} (lt : LapType) : (s.computeLaplacian lt).2.basis = if lt ≠ s.lapType then none else s.basis := by
  have hdir : ∀ s : GState n, s.isDirected.2.basis = s.basis := fun s => by unfold GState.isDirected; split <;> rfl
  have hdw : ∀ s : GState n, s.getDw.2.basis = s.basis := fun s => by
    unfold getDw
    split
    · rfl
    · exact hdir s
  unfold computeLaplacian
  simp only
  cases lt <;> simp only [hdir, hdw] <;> split <;> rfl

/-- the Laplacian is determined by its type -/
theorem same_lap {s s' : GState n} (hi : Inv S s) (hi' : Inv S s') (hb : s'.base = s.base) (hk : Known s.lapType) (hl : s'.lapType = s.lapType) : s'.L = s.L := by
  obtain ⟨lt, -, h2, h3⟩ := hi.lap
  obtain ⟨lt', -, h2', h3'⟩ := hi'.lap
  have hW : s'.W = s.W := congrArg Graph.W hb
  rw [h3' (by rw [hl]; exact hk), hl, ← h3 hk, hW, h2] at h2'
  exact (Except.ok.inj h2').symm

theorem run_prov (hS : Sound S) {s : GState n} (hi : Inv S s) (hp : Prov S s) (op : Op n) : Prov S (op.run S s).2 := by
  intro hk b hb
  have hi' := run_inv hS hi op
  have hbase := run_base S op s
  have hlt := run_lapType hi op
  -- the type and the basis have not changed
  have same : (op.run S s).2.lapType = s.lapType → (op.run S s).2.basis = s.basis →
      b.k = n ∨ (0 < b.k ∧ b.k < n ∧ ∃ t e0, S.eigshSM b.k t (op.run S s).2.L = some (e0, b.U)) := fun h1 h2 => by
    have hk' : Known s.lapType := h1 ▸ hk
    rw [same_lap hi hi' hbase hk' h1]
    exact hp hk' b (h2 ▸ hb)
  have fourier : (op.run S s).2.lapType = s.lapType → ∀ k, (op.run S s).2.basis = (s.computeFourierBasis S k).2.basis →
      b.k = n ∨ (0 < b.k ∧ b.k < n ∧ ∃ t e0, S.eigshSM b.k t (op.run S s).2.L = some (e0, b.U)) := fun h1 k h2 => by
    have hk' : Known s.lapType := h1 ▸ hk
    rcases fourier_from hi.pure (S := S) k with h | ⟨b', e, h3, h4⟩
    · exact same h1 (h2.trans h)
    · rw [h2, h4] at hb
      obtain rfl := Option.some.inj hb
      rw [same_lap hi hi' hbase hk' h1]
      rcases decompose_from h3 with h | ⟨h5, h6, t, ht⟩
      · exact .inl h
      · exact .inr ⟨h5, h6, t, _, ht⟩
  cases op with
  | isDirected => exact same hlt (isDirected_spec hi.pure).2.basis
  | isConnected pop => exact same hlt (isConnected_sim hi.pure hi.built pop).basis
  | getA => exact same hlt (getA_spec hi.pure).2.basis
  | getD => exact same hlt (getD_spec hi.pure).2.basis
  | getDw => exact same hlt (getDw_spec hi.pure).2.basis
  | getEdgeList => exact same hlt (getEdgeList_spec hi.pure).2.basis
  | computeLaplacian lt =>
    have h2 : ((Op.computeLaplacian lt).run S s).2.basis = if lt ≠ s.lapType then none else s.basis := computeLaplacian_basis lt
    by_cases hc : lt = s.lapType
    · exact same (by rw [hlt]; exact hc) (by rw [h2, if_neg (by simpa using hc)])
    · rw [h2, if_pos hc] at hb
      simp at hb
  | estimateLmax m => exact same hlt (estimateLmax_basis S m s)
  | getLmax => exact same hlt (getLmax_basis S s)
  | computeFourierBasis k => exact fourier hlt k rfl
  | getBasis =>
    cases hb' : s.basis with
    | some b0 => exact same hlt (by simp only [Op.run]; unfold getBasis; simp only [hb'])
    | none => exact fourier hlt none (by simp only [Op.run]; unfold getBasis; simp only [hb']; split <;> rfl)
  | getCoherence =>
    cases hb' : s.coherence with
    | some b0 => exact same hlt (by simp only [Op.run]; unfold getCoherence; simp only [hb'])
    | none => exact fourier hlt none (by simp only [Op.run]; unfold getCoherence; simp only [hb']; split <;> rfl)
  | computeDiff => exact same hlt (computeDiff_basis hi.pure)
  | getDiff =>
    refine same hlt ?_
    simp only [Op.run]; unfold getDiff; split
    · rfl
    · simp only; split <;> exact computeDiff_basis hi.pure
  | setW M => exact same hlt rfl

/-- **the eigenvectors that histories leave in the graph** -/
theorem reach_prov (hS : Sound S) {g : Graph n ℝ} (hg : g.Built) (ops : List (Op n)) : Prov S (runAll S ops (ofGraph g)) := by
  have h0 := ofGraph_inv (S := S) g hg
  have : ∀ (ops : List (Op n)) (s : GState n), Inv S s → Prov S s → Prov S (runAll S ops s) := by
    intro ops
    induction ops with
    | nil => exact fun s _ h => h
    | cons op ops ih => exact fun s hi h => ih _ (run_inv hS hi op) (run_prov hS hi h op)
  exact this ops _ h0.1 fun _ b hb => by rw [h0.2.2.2.2.2] at hb; simp at hb

end GState

end PyGSP
