import Verif.Lemmas.StateExtra

/-!
# C17 - C21: the mutable graph object over arbitrary histories of calls

A history is a list of operations (`Op`), some of which may raise; the object lives on.  `S` are the eigensolvers.
-/

namespace PyGSP

open Matrix Spec

variable {n : ℕ}

/-! ## C17 -/

/-- No history of calls changes the weight matrix (as stored) or the edge count. -/
theorem C17_immutable (S : Solvers n) (g : Graph n ℝ) (ops : List (Op n)) :
    (runAll S ops (GState.ofGraph g)).W = g.W ∧ (runAll S ops (GState.ofGraph g)).base.nEdges = g.nEdges := by
  unfold GState.W
  rw [GState.runAll_base, GState.ofGraph_base]
  exact ⟨rfl, rfl⟩

/-- Assigning `G.W` raises AttributeError and does nothing. -/
theorem C17_setter (S : Solvers n) (s : GState n) (M : Sp n n ℝ) :
    (Op.setW M).run S s = (.error .attributeError, s) := rfl

/-! ## C18 -/


/-- The Laplacian type requested by an operation, if any. -/
def Spec.requestedType : Op n → Option LapType
  | .computeLaplacian lt => some lt
  | _ => none

/-- The type requested last in a history starting with type `lt`. -/
def Spec.lastType (ops : List (Op n)) (lt : LapType) : LapType :=
  ops.foldl (fun t op => (requestedType op).getD t) lt

theorem GState.run_lapType {S : Solvers n} {s : GState n} (hi : Inv S s) (op : Op n) :
    (op.run S s).2.lapType = (requestedType op).getD s.lapType := by
  cases op with
  | isDirected => exact (isDirected_spec hi.pure).2.lapType
  | isConnected pop => exact (isConnected_sim hi.pure hi.built pop).lapType
  | getA => exact (getA_spec hi.pure).2.lapType
  | getD => exact (getD_spec hi.pure).2.lapType
  | getDw => exact (getDw_spec hi.pure).2.lapType
  | getEdgeList => exact (getEdgeList_spec hi.pure).2.lapType
  | computeLaplacian lt => exact computeLaplacian_lapType hi lt
  | estimateLmax m => exact estimateLmax_lapType hi.pure m
  | getLmax =>
    simp only [Op.run]; unfold getLmax; split
    · rfl
    · simp only; split <;> exact estimateLmax_lapType hi.pure _
  | computeFourierBasis k => exact computeFourierBasis_lapType hi.pure k
  | getBasis =>
    simp only [Op.run]; unfold getBasis; split
    · rfl
    · simp only; split <;> exact computeFourierBasis_lapType hi.pure _
  | getCoherence =>
    simp only [Op.run]; unfold getCoherence; split
    · rfl
    · simp only; split <;> exact computeFourierBasis_lapType hi.pure _
  | computeDiff => exact (computeDiff_keeps hi.pure).1
  | getDiff =>
    simp only [Op.run]; unfold getDiff; split
    · rfl
    · simp only; split <;> exact (computeDiff_keeps hi.pure).1
  | setW M => rfl


theorem GState.runAll_lapType {S : Solvers n} (hS : Sound S) (ops : List (Op n)) {s : GState n} (hi : Inv S s) :
    (runAll S ops s).lapType = lastType ops s.lapType := by
  induction ops generalizing s with
  | nil => rfl
  | cons op ops ih =>
    refine (ih (run_inv hS hi op)).trans ?_
    rw [run_lapType hi op]
    rfl

/-- The states that histories reach satisfy the invariant. -/
theorem GState.reach_inv {S : Solvers n} (hS : Sound S) {g : Graph n ℝ} (hg : g.Built) (ops : List (Op n)) :
    Inv S (runAll S ops (ofGraph g)) ∧ (runAll S ops (ofGraph g)).W = g.W ∧
      (runAll S ops (ofGraph g)).lapType = lastType ops g.lapType := by
  have h := ofGraph_inv (S := S) g hg
  refine ⟨runAll_inv hS ops h.1, (C17_immutable S g ops).1, ?_⟩
  rw [runAll_lapType hS ops h.1, h.2.2.1]

section C18
open GState

variable {S : Solvers n} (hS : Sound S) {g : Graph n ℝ} (hg : g.Built) (ops : List (Op n)) {s : GState n}
  (hs : s = runAll S ops (GState.ofGraph g))

include hS hg hs

/-- After any history, the attributes that describe the structure have the values they have on the freshly
constructed graph: `is_directed()`, `d`, `dw`, `A`, the edge list. -/
theorem C18_structure :
    (s.isDirected.1 = true ↔ ¬ Undirected g.W.dense) ∧
    s.getD.1 = degree g.W ∧ s.getDw.1 = wdeg g.W.dense ∧ s.getA.1 = posAdj g.W ∧
    s.getEdgeList.1 = g.getEdgeList := by
  obtain ⟨hi, hW, -⟩ := reach_inv hS hg ops
  rw [← hs] at hi hW
  have hb : s.base = g := by rw [hs, runAll_base, ofGraph_base]
  refine ⟨?_, ?_, ?_, ?_, ?_⟩
  · rw [(isDirected_spec hi.pure).1, hW, C03_is_directed_iff]
  · rw [(getD_spec hi.pure).1, hW]
  · rw [(getDw_spec hi.pure).1, hW]
    funext i
    exact C07_weighted_degree _ i
  · rw [(getA_spec hi.pure).1, hW]
  · rw [(getEdgeList_spec hi.pure).1, hb]

/-- `is_connected()`, after any history and for any popping order. -/
theorem C18_connected (hn : 0 < n) (pop : Pop n) :
    ∃ b, (s.isConnected pop).1 = .ok b ∧ (b = true ↔ StronglyConnected g.W.dense) := by
  obtain ⟨hi, hW, -⟩ := reach_inv hS hg ops
  rw [← hs] at hi hW
  obtain ⟨b, h1, h2, -⟩ := isConnected_spec hi.pure hi.built hn pop
  exact ⟨b, h1, hW ▸ h2⟩

/-- `G.lap_type` is the type requested last; when it is a known type, `G.L` is the Laplacian of that type. -/
theorem C18_laplacian :
    s.lapType = lastType ops g.lapType ∧ (Known s.lapType → laplacian g.W s.lapType = .ok s.L) := by
  obtain ⟨hi, hW, hl⟩ := reach_inv hS hg ops
  rw [← hs] at hi hW hl
  refine ⟨hl, fun hk => ?_⟩
  obtain ⟨lt, -, h1, h2⟩ := hi.lap
  rw [← h2 hk, ← hW]
  exact h1

/-- `G.D` is the differential operator of the current Laplacian: one column per edge and `D Dᵀ = L`. -/
theorem C18_diff_operator (hW : NonnegW g.W.dense) (hk : Known s.lapType) :
    ∃ (m : ℕ) (D : Sp n m ℝ), s.getDiff.1 = .ok (some ⟨m, D⟩) ∧ m = g.nEdges ∧ D.dense * D.denseᵀ = s.L := by
  obtain ⟨hi, hWs, -⟩ := reach_inv hS hg ops
  have hl := (C18_laplacian hS hg ops hs).2 hk
  rw [← hs] at hi hWs
  have hb : s.base = g := by rw [hs, runAll_base, ofGraph_base]
  have hcur : s.cur = { g with lapType := s.lapType } := by unfold cur; rw [hb]
  obtain ⟨m, D, L, h1, h2, h3, h4⟩ := C13_diff_operator s.cur
    (by rw [hcur]; exact hg.withLapType _ hk) (by rw [hcur]; exact hW)
  refine ⟨m, D, (getDiff_spec hi).2 _ h1, by rw [h2, hcur], ?_⟩
  rw [hcur] at h3
  change laplacian g.W s.lapType = .ok L at h3
  rw [hl] at h3
  cases h3
  exact h4

/-- `G.U`, `G.e` after any history on a graph with non-negative weights: reading them never fails when the type is
known, and they are orthonormal eigenvectors and eigenvalues of the current `G.L`. -/
theorem C18_fourier (hW : NonnegW g.W.dense) (hn : 0 < n) (hk : Known s.lapType) :
    ∃ b, (s.getBasis S).1 = .ok (some b) ∧ IsEigenPairs s.L b.e b.U ∧ Monotone b.e := by
  obtain ⟨hi, hWs, -⟩ := reach_inv hS hg ops
  rw [← hs] at hi hWs
  have hW' : NonnegW s.W.dense := by rw [hWs]; exact hW
  unfold getBasis
  split
  · rename_i b hb
    obtain ⟨h1, h2, -⟩ := (hi.basis b hb).exact (hi.psd hW') (hi.zero hW')
    exact ⟨b, rfl, h1, h2⟩
  · rename_i hb
    obtain ⟨h1, b, h2, h3, h4, -⟩ := computeFourierBasis_ok hS hi hW' hn hk none ⟨by simpa using hn, by simp⟩
      (.inl rfl) (by simp [hasBasis, hb])
    have hi' := computeFourierBasis_inv hS hi none
    simp only
    rw [h1]
    have hb' := hi'.basis b h2
    rw [h4] at hb'
    obtain ⟨h5, h6, -⟩ := hb'.exact (hi.psd hW') (hi.zero hW')
    exact ⟨b, congrArg Except.ok h2, h5, h6⟩

/-- `G.coherence`, when it is readable, is the largest magnitude in the *current* complete basis `G.U`. -/
theorem C18_coherence (c : ℝ) (hc : (s.getCoherence S).1 = .ok (some c)) :
    ∃ b, (s.getCoherence S).2.basis = some b ∧ b.k = n ∧ (s.getCoherence S).2.L = s.L ∧
      (∀ i j, |b.U i j| ≤ c) ∧ ∃ i j, |b.U i j| = c := by
  obtain ⟨hi, hWs, -⟩ := reach_inv hS hg ops
  rw [← hs] at hi hWs
  unfold getCoherence at hc ⊢
  split at hc
  · rename_i b hb
    simp only [Except.ok.injEq, Option.some.injEq] at hc
    subst hc
    obtain ⟨b', h1, h2, h3, h4⟩ := hi.coh _ hb
    exact ⟨b', h1, h2, rfl, h3, h4⟩
  · rename_i hb
    simp only at hc ⊢
    have hi' := computeFourierBasis_inv hS hi none
    split at hc
    · simp at hc
    · simp only [Except.ok.injEq] at hc ⊢
      obtain ⟨b', h1, h2, h3, h4⟩ := hi'.coh _ hc
      exact ⟨b', h1, h2, computeFourierBasis_L _ _ _, h3, h4⟩

end C18

/-- A history that switches types back and forth, with a failing call in between. -/
example : ∃ g : Graph 2 ℝ, g.Built ∧ NonnegW g.W.dense ∧ ∃ S : Solvers 2, Sound S ∧
    GState.Known (runAll S [.getBasis, .computeLaplacian (.other "foo"), .getDiff, .computeLaplacian .normalized]
      (GState.ofGraph g)).lapType := by
  obtain ⟨g, hg, hd, -⟩ := Graph.exists_built (K := ℝ) !![0, 1; 1, 0]
  obtain ⟨S, hS, -⟩ := exists_sound 2
  refine ⟨g, hg, ?_, S, hS, ?_⟩
  · rw [hd]; intro i j; fin_cases i <;> fin_cases j <;> simp
  · rw [(C18_laplacian hS hg _ rfl).1]; right; rfl


/-! ## C19 -/

/-- The value that `eigsh` returns is a largest eigenvalue (exact convergence). -/
def Spec.ExactLM (S : Solvers n) : Prop :=
  ∀ t (L : Matrix (Fin n) (Fin n) ℝ), (∀ i j, L i j = L j i) → ∀ r, S.eigshLM t L = some r → PSD L →
    IsEigenvalue L r ∧ ∀ l, IsEigenvalue L l → l ≤ r

/-- The value that `eigsh(k=1, tol=5e-3)` returns has the accuracy it is asked for: it is at most 0.5% below the largest eigenvalue. -/
def Spec.NearLM (S : Solvers n) : Prop :=
  ∀ t (L : Matrix (Fin n) (Fin n) ℝ), (∀ i j, L i j = L j i) → ∀ r, S.eigshLM t L = some r → PSD L → ∀ l, IsEigenvalue L l → (1 - 5 / 1000) * l ≤ r

theorem Spec.ExactLM.near {S : Solvers n} (h : ExactLM S) : NearLM S := fun t L hL r hr hp l hl => by
  have h1 := (h t L hL r hr hp).2 l hl
  have := eig_nonneg hp hl
  linarith

open GState in
/-- As long as no call changes the Laplacian type, reading `G.lmax` on a graph with non-negative weights and at least
two vertices gives a number, never `None` nor an exception (provided ARPACK converges).  If moreover ARPACK reaches the
tolerance it is given (5e-3), the number bounds the spectrum of `G.L`: the 1% that is added makes up for it. -/
theorem C19_lmax_is_a_number {S : Solvers n} (hS : Sound S) (hc : ∀ t L, (S.eigshLM t L).isSome) {g : Graph n ℝ}
    (hg : g.Built) (hW : NonnegW g.W.dense) (hn : 2 ≤ n) (ops : List (Op n))
    (hkeep : ∀ lt, Op.computeLaplacian lt ∈ ops → lt = g.lapType) {s : GState n}
    (hs : s = runAll S ops (GState.ofGraph g)) :
    ∃ v : ℝ, (s.getLmax S).1 = .ok (some (.fin v)) ∧
      (NearLM S → ∀ l, IsEigenvalue s.L l → l ≤ v) := by
  obtain ⟨h0, hb0, hl0, hm0, hmm0, -⟩ := ofGraph_inv (S := S) g hg
  have hW0 : NonnegW (ofGraph g).W.dense := by unfold GState.W; rw [hb0]; exact hW
  have hk0 : Known (ofGraph g).lapType := by rw [hl0]; exact hg.lapType_known
  obtain ⟨hr, hl⟩ := runAll_ready hS hc ops h0 hW0 hn hk0 (by intro h; rw [hmm0] at h; simp at h) (by
    intro op hop
    cases op <;> simp only [Keeps]
    rw [hl0]; exact hkeep _ hop)
  obtain ⟨hi, hWs, -⟩ := reach_inv hS hg ops
  rw [← hs] at hi hWs hr hl
  have hWs' : NonnegW s.W.dense := by rw [hWs]; exact hW
  have hk : Known s.lapType := by rw [hl]; exact hk0
  -- the meaning of a stored value
  have mean : ∀ s' : GState n, Inv S s' → s'.W = g.W → s'.L = s.L → s'.lapType = s.lapType → ∀ v,
      s'.lmax = some v → ∃ x : ℝ, v = .fin x ∧ (NearLM S → ∀ l, IsEigenvalue s.L l → l ≤ x) := by
    intro s' hi' hW' hL' hlt' v hv
    have hWn : NonnegW s'.W.dense := by rw [hW']; exact hW
    rcases hi'.lmax v hv with h | ⟨r, t, h1, h2, rfl⟩ | ⟨b, hb, hbn, hpos, rfl⟩
    · obtain ⟨B, hB1, hB2⟩ := hi'.bound hWn (by omega) (by rw [hlt']; exact hk)
      rw [h] at hB1
      cases hB1
      exact ⟨B, rfl, fun _ => hL' ▸ hB2⟩
    · refine ⟨_, rfl, fun hE l hl => ?_⟩
      have h4 := hE t _ hi'.L_symm r h1 (hi'.psd hWn) l (by rw [hL']; exact hl)
      have h5 := eig_nonneg (hi'.psd hWn) (hL'.symm ▸ hl)
      linarith
    · refine ⟨_, rfl, fun _ l hl => ?_⟩
      obtain ⟨h1, h2, -⟩ := (hi'.basis b hb).exact (hi'.psd hWn) (hi'.zero hWn)
      obtain ⟨k, e, U⟩ := b
      simp only at hbn hpos h1 h2
      subst hbn
      obtain ⟨j, hj⟩ := h1.complete hi'.L_symm (l := l) (by rw [hL']; exact hl)
      rw [← hj]
      exact h2 (Fin.le_def.2 (by have := j.2; simp only; omega))
  unfold getLmax
  split
  · rename_i v hv
    obtain ⟨x, rfl, hx⟩ := mean s hi hWs rfl rfl v hv
    exact ⟨x, rfl, hx⟩
  · have h := (estimateLmax_ready hS hc hi hWs' hn hk hr .lanczos)
    obtain ⟨h1, h2⟩ := h.2.2 rfl
    obtain ⟨v, hv⟩ := Option.isSome_iff_exists.1 h2
    simp only
    rw [h1]
    simp only
    rw [hv]
    obtain ⟨x, rfl, hx⟩ := mean _ (estimateLmax_inv hi .lanczos) (by
      unfold GState.W; rw [estimateLmax_base]; exact hWs) (estimateLmax_L _ _ _) h.2.1 v hv
    exact ⟨x, rfl, hx⟩

open GState in
/-- After a successful Lanczos estimate (an explicit `estimate_lmax()` or the first read of `G.lmax`), changing the
Laplacian type makes `G.lmax` return `None` instead of a number: the reset forgets `_lmax_method`.
This holds for every graph and every solver. -/
theorem C19_type_change_violated (S : Solvers n) (s : GState n) (lt : LapType) (hk : Known lt)
    (hlt : lt ≠ s.lapType) (hm : s.lmaxMethod = some .lanczos) :
    (s.computeLaplacian lt).1 = .ok () ∧ ((s.computeLaplacian lt).2.getLmax S).1 = .ok none := by
  have key : ∀ s' : GState n, s'.lmax = none → s'.lmaxMethod = some .lanczos → (s'.getLmax S).1 = .ok none := by
    intro s' h1 h2
    unfold getLmax
    rw [h1]
    simp only
    unfold estimateLmax
    rw [if_pos h2]
    simp only
    rw [h1]
  unfold computeLaplacian
  simp only
  rw [if_pos hlt]
  have hd : ∀ s' : GState n, s'.isDirected.2.lmax = s'.lmax ∧ s'.isDirected.2.lmaxMethod = s'.lmaxMethod := by
    intro s'; unfold GState.isDirected; split <;> exact ⟨rfl, rfl⟩
  have hw : ∀ s' : GState n, s'.getDw.2.lmax = s'.lmax ∧ s'.getDw.2.lmaxMethod = s'.lmaxMethod := by
    intro s'; unfold getDw; split
    · exact ⟨rfl, rfl⟩
    · exact hd s'
  rcases hk with rfl | rfl
  · refine ⟨rfl, key _ ?_ ?_⟩
    · simp only; rw [(hw _).1, (hd _).1]
    · simp only; rw [(hw _).2, (hd _).2]; exact hm
  · refine ⟨rfl, key _ ?_ ?_⟩
    · simp only; rw [(hw _).1, (hd _).1]
    · simp only; rw [(hw _).2, (hd _).2]; exact hm

open GState in
/-- The scenario exists: `G.estimate_lmax(); G.compute_laplacian('normalized'); G.lmax` is `None`. -/
theorem C19_scenario_violated : ∃ g : Graph 2 ℝ, g.Built ∧ NonnegW g.W.dense ∧ ∀ S : Solvers 2, Sound S →
    (∀ t L, (S.eigshLM t L).isSome) →
    let s := runAll S [.estimateLmax .lanczos, .computeLaplacian .normalized] (GState.ofGraph g)
    (s.getLmax S).1 = .ok none := by
  obtain ⟨g, hg, hd, hl⟩ := Graph.exists_built (K := ℝ) !![0, 1; 1, 0]
  refine ⟨g, hg, ?_, fun S hS hc => ?_⟩
  · rw [hd]; intro i j; fin_cases i <;> fin_cases j <;> simp
  · obtain ⟨h0, hb0, hl0, hm0, hmm0, -⟩ := ofGraph_inv (S := S) g hg
    refine (C19_type_change_violated S ((ofGraph g).estimateLmax S .lanczos).2 .normalized (.inr rfl) ?_ ?_).2
    · rw [estimateLmax_lapType h0.pure, hl0, hl]; simp
    · obtain ⟨-, hsome⟩ := (estimateLmax_ready hS hc h0 (by
        unfold GState.W; rw [hb0, hd]; intro i j; fin_cases i <;> fin_cases j <;> simp) (by norm_num)
        (by rw [hl0]; exact hg.lapType_known) (by intro h; rw [hmm0] at h; simp at h) .lanczos).2.2 rfl
      exact estimateLmax_method h0.pure .lanczos

/-! ## C20 -/

open GState in
/-- After `compute_fourier_basis()` on a graph with non-negative weights whose complete basis was not cached yet,
`lmax` is `e[-1]`, the largest eigenvalue of `G.L`; reading `G.lmax` returns it. -/
theorem C20_lmax_exact {S : Solvers n} (hS : Sound S) {g : Graph n ℝ} (hg : g.Built) (hW : NonnegW g.W.dense)
    (hn : 0 < n) (ops : List (Op n)) {s : GState n} (hs : s = runAll S ops (GState.ofGraph g)) (hk : Known s.lapType)
    (hnb : ∀ b, s.basis = some b → b.k < n) :
    (s.computeFourierBasis S none).1 = .ok () ∧
    ∃ (b : Basis n) (h : 0 < b.k), (s.computeFourierBasis S none).2.basis = some b ∧ b.k = n ∧
      ((s.computeFourierBasis S none).2.getLmax S).1 = .ok (some (.fin (b.e ⟨b.k - 1, by omega⟩))) ∧
      IsEigenvalue s.L (b.e ⟨b.k - 1, by omega⟩) ∧
      ∀ l, IsEigenvalue s.L l → l ≤ b.e ⟨b.k - 1, by omega⟩ := by
  obtain ⟨hi, hWs, -⟩ := reach_inv hS hg ops
  rw [← hs] at hi hWs
  have hWs' : NonnegW s.W.dense := by rw [hWs]; exact hW
  obtain ⟨h1, b, h2, h3, h4, -, -, h5⟩ := computeFourierBasis_ok hS hi hWs' hn hk none ⟨by simpa using hn, by simp⟩
    (.inl rfl) (by
      unfold hasBasis
      cases hb : s.basis with
      | none => rfl
      | some b => have := hnb b hb; simpa using this)
  obtain ⟨hpos, h6, -, -⟩ := h5 rfl
  have hi' := computeFourierBasis_inv hS hi none
  have hb' := hi'.basis b h2
  rw [h4] at hb'
  obtain ⟨h7, h8, -⟩ := hb'.exact (hi.psd hWs') (hi.zero hWs')
  refine ⟨h1, b, hpos, h2, h3, ?_, h7.isEigenvalue _, fun l hl => ?_⟩
  · unfold getLmax; rw [h6]
  · obtain ⟨k, e, U⟩ := b
    simp only [Option.getD_none] at h3
    subst h3
    obtain ⟨j, hj⟩ := h7.complete hi.L_symm hl
    rw [← hj]
    exact h8 (Fin.le_def.2 (by have := j.2; simp only; omega))

/-- When a sufficient basis is cached, the call does nothing at all. -/
theorem C20_cached (S : Solvers n) (s : GState n) (b : Basis n) (hb : s.basis = some b) (k : Option ℕ)
    (hk : k.getD n ≤ b.k) : s.computeFourierBasis S k = (.ok (), s) := by
  unfold GState.computeFourierBasis GState.hasBasis
  rw [hb]
  simp [hk]

open GState in
/-- ... so re-estimating in between wins: after `compute_fourier_basis(); estimate_lmax('bounds');
compute_fourier_basis()` on the normalized triangle, `G.lmax` is 2 although `G.e[-1]` is 3/2. -/
theorem C20_reestimate_violated : ∃ g : Graph 3 ℝ, g.Built ∧ NonnegW g.W.dense ∧ ∀ S : Solvers 3, Sound S →
    let s := runAll S [.computeFourierBasis none, .estimateLmax .bounds] (GState.ofGraph g)
    (s.computeFourierBasis S none).1 = .ok () ∧
    ((s.computeFourierBasis S none).2.getLmax S).1 = .ok (some (.fin 2)) ∧
    ∃ b : Basis 3, (s.computeFourierBasis S none).2.basis = some b ∧ b.k = 3 ∧ ∀ j, b.e j ≤ 3 / 2 := by
  obtain ⟨g, hg, hd, hl⟩ := Graph.exists_built (K := ℝ) !![0, 1, 1; 1, 0, 1; 1, 1, 0] .normalized
  have hW : NonnegW g.W.dense := by rw [hd]; intro i j; fin_cases i <;> fin_cases j <;> simp
  refine ⟨g, hg, hW, fun S hS => ?_⟩
  have h0 := ofGraph_inv (S := S) g hg
  have hL : (ofGraph g).L = Matrix.of fun i j => (if i = j then 3 / 2 else 0) - 1 / 2 := by
    have h1 := (C18_laplacian hS hg [] rfl).2 (by show Known (ofGraph g).lapType; rw [h0.2.2.1]; exact hg.lapType_known)
    change laplacian g.W (ofGraph g).lapType = .ok (ofGraph g).L at h1
    rw [h0.2.2.1, hl, laplacian_norm _ hW, hd] at h1
    have h2 := Except.ok.inj h1
    rw [← h2]
    have hs : Real.sqrt 2 * Real.sqrt 2 = 2 := Real.mul_self_sqrt (by norm_num)
    have hs0 : Real.sqrt 2 ≠ 0 := by positivity
    have hdeg : ∀ i, wdeg (!![0, 1, 1; 1, 0, 1; 1, 1, 0] : Matrix (Fin 3) (Fin 3) ℝ) i = 2 := by
      intro i; fin_cases i <;> simp [wdeg, Fin.sum_univ_three] <;> norm_num
    have hns : ∀ i, nscale (!![0, 1, 1; 1, 0, 1; 1, 1, 0] : Matrix (Fin 3) (Fin 3) ℝ) i = 1 / Real.sqrt 2 := by
      intro i; simp only [nscale, hdeg]; norm_num
    have hcl : ∀ i j, combLap (!![0, 1, 1; 1, 0, 1; 1, 1, 0] : Matrix (Fin 3) (Fin 3) ℝ) i j
        = (if i = j then 3 else 0) - 1 := by
      intro i j
      simp only [combLap, Matrix.of_apply, hdeg]
      fin_cases i <;> fin_cases j <;> simp [wsym] <;> norm_num
    funext i j
    simp only [Matrix.of_apply]
    rw [hns, hns, hcl]
    have : (1 / Real.sqrt 2) * (1 / Real.sqrt 2) = 1 / 2 := by
      rw [div_mul_div_comm, hs]; norm_num
    calc _ = (1 / Real.sqrt 2 * (1 / Real.sqrt 2)) * ((if i = j then 3 else 0) - 1 : ℝ) := by ring
      _ = _ := by rw [this]; split <;> norm_num
  have heig : ∀ l, IsEigenvalue (ofGraph g).L l → l ≤ 3 / 2 := by
    rintro l ⟨x, hx, h⟩
    rw [hL] at h
    have h' : ∀ i, 3 / 2 * x i - (x 0 + x 1 + x 2) / 2 = l * x i := by
      intro i
      have := congrFun h i
      simp only [Matrix.mulVec, dotProduct, Matrix.of_apply, Fin.sum_univ_three, Pi.smul_apply, smul_eq_mul] at this
      rw [← this]
      fin_cases i <;> simp <;> ring
    by_contra hl'
    push Not at hl'
    have hsum : l * (x 0 + x 1 + x 2) = 0 := by linear_combination (-1) * (h' 0) - h' 1 - h' 2
    have hs0 : x 0 + x 1 + x 2 = 0 := by
      rcases mul_eq_zero.1 hsum with h | h
      · linarith
      · exact h
    apply hx
    funext i
    have := h' i
    rw [hs0] at this
    have h3 : (3 / 2 - l) * x i = 0 := by linarith
    rcases mul_eq_zero.1 h3 with h | h
    · linarith
    · exact h
  have hk0 : Known (ofGraph g).lapType := by rw [h0.2.2.1]; exact hg.lapType_known
  have hW0 : NonnegW (ofGraph g).W.dense := by unfold GState.W; rw [h0.2.1]; exact hW
  obtain ⟨h1, b, h2, h3, h4, h5, h6, h7⟩ := computeFourierBasis_ok hS h0.1 hW0 (by norm_num) hk0 none
    ⟨by simp, by simp⟩ (.inl rfl) (by simp [hasBasis, h0.2.2.2.2.2])
  obtain ⟨hpos, h8, h9, -⟩ := h7 rfl
  have hi1 := computeFourierBasis_inv hS h0.1 none
  have hb1 := hi1.basis b h2
  rw [h4] at hb1
  obtain ⟨h10, -⟩ := hb1.exact (h0.1.psd hW0) (h0.1.zero hW0)
  intro s
  have hs : s = (((ofGraph g).computeFourierBasis S none).2.estimateLmax S .bounds).2 := rfl
  set s1 := ((ofGraph g).computeFourierBasis S none).2 with hs1
  have hub : ({ s1 with lmaxMethod := some .bounds } : GState 3).upperBound
      = (.ok (.fin 2), { s1 with lmaxMethod := some .bounds }) := by
    unfold upperBound
    simp only
    rw [h6, h0.2.2.1, hl]
  have hs2 : s = { s1 with lmaxMethod := some .bounds, lmax := some (.fin 2) } := by
    rw [hs]
    unfold estimateLmax
    rw [if_neg (by rw [h9]; simp)]
    simp only
    rw [hub]
  have hsb : s.basis = some b := by rw [hs2]; exact h2
  have hc := C20_cached S s b hsb none (by rw [h3])
  rw [hc]
  refine ⟨rfl, ?_, b, hsb, h3, fun j => heig _ (h10.isEigenvalue j)⟩
  unfold getLmax
  rw [hs2]

/-! ## C21 -/

namespace Spec

/-- Two states that a user cannot tell apart through the attributes: same structure, Laplacian, `lmax`, basis,
coherence and differential operator (they may differ by cached values that are determined by `W`). -/
structure SameObservable (s s' : GState n) : Prop where
  base : s'.base = s.base
  lapType : s'.lapType = s.lapType
  L : s'.L = s.L
  lmax : s'.lmax = s.lmax
  lmaxMethod : s'.lmaxMethod = s.lmaxMethod
  basis : s'.basis = s.basis
  coherence : s'.coherence = s.coherence
  D : s'.D = s.D
  isDirected : s'.isDirected.1 = s.isDirected.1
  d : s'.getD.1 = s.getD.1
  dw : s'.getDw.1 = s.getDw.1
  A : s'.getA.1 = s.getA.1
  edges : s'.getEdgeList.1 = s.getEdgeList.1

end Spec

theorem GState.Sim.observable {s s' : GState n} (hp : s.PureOK) (h : Sim s s') : SameObservable s s' := by
  have hW : s'.W = s.W := congrArg Graph.W h.base
  refine ⟨h.base, h.lapType, h.L, h.lmax, h.lmaxMethod, h.basis, h.coherence, h.D, ?_, ?_, ?_, ?_, ?_⟩
  · rw [(isDirected_spec hp).1, (isDirected_spec h.pure).1, hW]
  · rw [(getD_spec hp).1, (getD_spec h.pure).1, hW]
  · rw [(getDw_spec hp).1, (getDw_spec h.pure).1, hW]
  · rw [(getA_spec hp).1, (getA_spec h.pure).1, hW]
  · rw [(getEdgeList_spec hp).1, (getEdgeList_spec h.pure).1, h.base]

open GState in
/-- After any history, a failing `is_connected`, `get_edge_list`, `compute_differential_operator`, `G.D` or `G.W = …`
leaves the object as it was. -/
theorem C21_atomic {S : Solvers n} (hS : Sound S) {g : Graph n ℝ} (hg : g.Built) (ops : List (Op n)) {s : GState n}
    (hs : s = runAll S ops (GState.ofGraph g)) (op : Op n)
    (hop : (∃ pop, op = .isConnected pop) ∨ op = .getEdgeList ∨ op = .computeDiff ∨ op = .getDiff ∨ ∃ M, op = .setW M)
    (e : PyErr) (he : (op.run S s).1 = .error e) : SameObservable s (op.run S s).2 := by
  obtain ⟨hi, -, -⟩ := reach_inv hS hg ops
  rw [← hs] at hi
  have hp := hi.pure
  rcases hop with ⟨pop, rfl⟩ | rfl | rfl | rfl | ⟨M, rfl⟩
  · exact (isConnected_sim hp hi.built pop).observable hp
  · exact (getEdgeList_spec hp).2.observable hp
  · exact ((computeDiff_spec hi).2.2.2 e he).observable hp
  · simp only [Op.run] at he ⊢
    unfold getDiff at he ⊢
    split
    · exact (Sim.refl hp).observable hp
    · rename_i hD
      rw [hD] at he
      simp only at he ⊢
      have h := (computeDiff_spec hi).2.2.2
      cases hc : s.computeDiff.1 with
      | error e' => exact (h e' hc).observable hp
      | ok _ => rw [hc] at he; simp at he
  · exact (Sim.refl hp).observable hp

/-- Such failures happen: `G.D` on an object left with an unknown Laplacian type. -/
example : ∃ g : Graph 2 ℝ, g.Built ∧ ∀ S : Solvers 2, Sound S →
    ((Op.getDiff).run S (runAll S [.computeLaplacian (.other "foo")] (GState.ofGraph g))).1 = .error .valueError := by
  obtain ⟨g, hg, hd, -⟩ := Graph.exists_built (K := ℝ) !![0, 1; 1, 0]
  refine ⟨g, hg, fun S hS => ?_⟩
  obtain ⟨hi, hW, hl⟩ := GState.reach_inv hS hg [.computeLaplacian (.other "foo")]
  set s := runAll S [.computeLaplacian (.other "foo")] (GState.ofGraph g) with hs
  have hl' : s.lapType = .other "foo" := hl
  have hD : s.D = none := by
    have h0 := GState.ofGraph_inv (S := S) g hg
    have : LapType.other "foo" ≠ (GState.ofGraph g).lapType := by
      rw [h0.2.2.1]; rcases hg.lapType_known with h | h <;> rw [h] <;> simp
    simp only [hs, runAll, List.foldl, Op.run, GState.computeLaplacian, if_pos this]
    unfold GState.isDirected
    split <;> rfl
  have hc := (GState.computeDiff_spec hi).2.1
  obtain ⟨es, h1, -⟩ := C04_edge_list g hg
  have hb : s.base = g := by rw [hs, GState.runAll_base, GState.ofGraph_base]
  have : s.cur.diffOp = .error .valueError := by
    unfold Graph.diffOp
    rw [GState.cur_edgeList, hb, h1, show s.cur.lapType = s.lapType from rfl, hl']
  rw [this] at hc
  simp only [Op.run]
  unfold GState.getDiff
  rw [hD]
  simp only
  rw [hc]

/-- `compute_laplacian` with a known type always succeeds and always repairs the object, whatever failed before:
`G.L` is then the Laplacian of that type. -/
theorem C21_recover {S : Solvers n} (hS : Sound S) {g : Graph n ℝ} (hg : g.Built) (ops : List (Op n)) {s : GState n}
    (hs : s = runAll S ops (GState.ofGraph g)) (lt : LapType) (hlt : lt = .combinatorial ∨ lt = .normalized) :
    (s.computeLaplacian lt).1 = .ok () ∧ (s.computeLaplacian lt).2.lapType = lt ∧
    laplacian g.W lt = .ok (s.computeLaplacian lt).2.L := by
  obtain ⟨hi, -, -⟩ := GState.reach_inv hS hg ops
  rw [← hs] at hi
  refine ⟨?_, GState.computeLaplacian_lapType hi lt, ?_⟩
  · unfold GState.computeLaplacian
    rcases hlt with rfl | rfl <;> rfl
  · have h := (C18_laplacian hS hg (ops ++ [.computeLaplacian lt])
      (s := (s.computeLaplacian lt).2) (by rw [hs]; unfold runAll; rw [List.foldl_append]; rfl)).2
    rw [GState.computeLaplacian_lapType hi lt] at h
    exact h hlt

/-- Not atomic: `compute_laplacian('foo')` raises ValueError, but the object now claims the type 'foo', keeps the
Laplacian of the previous type, and has dropped its basis, coherence, `D` and `lmax`.
For every state whose type is not already 'foo'. -/
theorem C21_laplacian_violated (s : GState n) (nm : String) (h : s.lapType ≠ .other nm) :
    (s.computeLaplacian (.other nm)).1 = .error .valueError ∧
    (s.computeLaplacian (.other nm)).2.lapType = .other nm ∧ (s.computeLaplacian (.other nm)).2.L = s.L ∧
    (s.computeLaplacian (.other nm)).2.basis = none ∧ (s.computeLaplacian (.other nm)).2.lmax = none ∧
    (s.computeLaplacian (.other nm)).2.D = none := by
  unfold GState.computeLaplacian
  simp only
  rw [if_pos (Ne.symm h)]
  unfold GState.isDirected
  split <;> simp

/-- Not atomic: when `estimate_lmax(method)` raises, repeating the very same call succeeds silently (and does
nothing), because the method was recorded before the work was done. -/
theorem C21_estimate_violated {S : Solvers n} (hS : Sound S) {g : Graph n ℝ} (hg : g.Built) (ops : List (Op n))
    {s : GState n} (hs : s = runAll S ops (GState.ofGraph g)) (m : LmaxMethod) (e : PyErr)
    (_he : (s.estimateLmax S m).1 = .error e) :
    (s.estimateLmax S m).2.estimateLmax S m = (.ok (), (s.estimateLmax S m).2) := by
  obtain ⟨hi, -, -⟩ := GState.reach_inv hS hg ops
  rw [← hs] at hi
  have := GState.estimateLmax_method (S := S) hi.pure m
  generalize (s.estimateLmax S m).2 = s' at this ⊢
  unfold GState.estimateLmax
  rw [if_pos this]

/-- an unknown method raises on a fresh graph -/
example (S : Solvers n) (g : Graph n ℝ) (hg : g.Built) :
    ((GState.ofGraph g).estimateLmax S (.other "foo")).1 = .error .valueError := by
  obtain ⟨-, -, -, -, h, -⟩ := GState.ofGraph_inv (S := S) g hg
  unfold GState.estimateLmax
  rw [if_neg (by rw [h]; simp)]

/-- Not atomic: when `compute_fourier_basis(k)` raises AssertionError, the arrays it rejected are stored and the same
call then succeeds silently. -/
theorem C21_fourier_violated (S : Solvers n) (s : GState n) (k : Option ℕ)
    (hS : Sound S) {g : Graph n ℝ} (hg : g.Built) (ops : List (Op n)) (hs : s = runAll S ops (GState.ofGraph g))
    (he : (s.computeFourierBasis S k).1 = .error .assertionError) :
    (s.computeFourierBasis S k).2.computeFourierBasis S k = (.ok (), (s.computeFourierBasis S k).2) := by
  obtain ⟨hi, -, -⟩ := GState.reach_inv hS hg ops
  rw [← hs] at hi
  obtain ⟨b, hb, hk⟩ : ∃ b, (s.computeFourierBasis S k).2.basis = some b ∧ k.getD n ≤ b.k := by
    unfold GState.computeFourierBasis at he ⊢
    simp only at he ⊢
    split
    · rename_i h; rw [if_pos h] at he; simp at he
    · rename_i h
      rw [if_neg h] at he
      split
      · rename_i e' hd
        rw [hd] at he
        simp only [Except.error.injEq] at he
        subst he
        unfold GState.decompose at hd
        split at hd
        · simp at hd
        · split at hd
          · simp at hd
          · split at hd
            · simp at hd
            · split at hd <;> simp at hd
      · rename_i b hd
        rw [hd] at he
        simp only at he ⊢
        obtain ⟨h1, -⟩ := GState.decompose_ok hS hi hd
        split
        · rename_i hk
          obtain ⟨b', h2, h3⟩ := GState.checkBasis_basis (s := { s with basis := some b, calls := s.calls + 1 })
            ⟨hi.2.1, hi.2.2, hi.2.3, hi.2.4, hi.2.5⟩ (k.getD n) b hk rfl
          exact ⟨b', h2, by rw [h3, h1]⟩
        · exact ⟨b, rfl, by rw [h1]⟩
  exact C20_cached S _ b hb k hk

open GState in
/-- With a negative weight the assertion does fire: two vertices joined by an edge of weight -1. -/
theorem C21_negative_weights_assertion : ∃ g : Graph 2 ℝ, g.Built ∧ ∀ S : Solvers 2, Sound S →
    ((GState.ofGraph g).computeFourierBasis S none).1 = .error .assertionError := by
  obtain ⟨g, hg, hd, hl⟩ := Graph.exists_built (K := ℝ) !![0, -1; -1, 0]
  refine ⟨g, hg, fun S hS => ?_⟩
  have h0 := ofGraph_inv (S := S) g hg
  have hL : (ofGraph g).L = !![-1, 1; 1, -1] := by
    have h1 := (C18_laplacian hS hg [] rfl).2 (by show Known (ofGraph g).lapType; rw [h0.2.2.1]; exact hg.lapType_known)
    change laplacian g.W (ofGraph g).lapType = .ok (ofGraph g).L at h1
    rw [h0.2.2.1, hl, laplacian_comb, hd] at h1
    rw [← Except.ok.inj h1]
    ext i j
    fin_cases i <;> fin_cases j <;> simp [combLap, wdeg, wsym] <;> norm_num
  have heig : IsEigenvalue (ofGraph g).L (-2) := by
    rw [hL]
    refine ⟨![1, -1], ?_, ?_⟩
    · intro h; have := congrFun h 0; simp at this
    · ext i; fin_cases i <;> simp [Matrix.mulVec, dotProduct, Fin.sum_univ_two] <;> norm_num
  obtain ⟨hE, hmono⟩ := hS.eigh (ofGraph g).calls (ofGraph g).L h0.1.L_symm
  obtain ⟨j, hj⟩ := hE.complete h0.1.L_symm heig
  have hle : (S.eigh (ofGraph g).calls (ofGraph g).L).1 0 ≤ -2 := by
    rw [← hj]; exact hmono (Fin.zero_le _)
  unfold computeFourierBasis
  simp only
  rw [if_neg (by simp [hasBasis, h0.2.2.2.2.2])]
  unfold decompose
  simp only [Option.getD_none, if_true]
  rw [dif_pos (by norm_num)]
  unfold checkBasis
  rw [if_neg]
  simp only [not_and, not_lt]
  intro h
  exfalso
  change _ < (S.eigh (ofGraph g).calls (ofGraph g).L).1 0 at h
  norm_num at h
  linarith

end PyGSP
