import Verif.Lemmas.Solvers
import Verif.Props.Laplacian

namespace PyGSP

open Matrix Spec

variable {n : ℕ}

namespace GState

variable {S : Solvers n}

/-- The attributes that only depend on `W` hold the right values, when they are set. -/
structure PureOK (s : GState n) : Prop where
  directed : ∀ b, s.directed = some b → b = PyGSP.isDirected s.W
  connected : ∀ b, s.connected = some b → (b = true ↔ StronglyConnected s.W.dense)
  adj : ∀ v, s.adj = some v → v = posAdj s.W
  d : ∀ v, s.d = some v → v = degree s.W
  dw : ∀ v, s.dw = some v → v = PyGSP.dw s.W

/-- `s'` is `s` up to attributes that only depend on `W`. -/
structure Sim (s s' : GState n) : Prop where
  base : s'.base = s.base
  lapType : s'.lapType = s.lapType
  L : s'.L = s.L
  lmax : s'.lmax = s.lmax
  lmaxMethod : s'.lmaxMethod = s.lmaxMethod
  basis : s'.basis = s.basis
  coherence : s'.coherence = s.coherence
  D : s'.D = s.D
  calls : s'.calls = s.calls
  pure : PureOK s'

theorem Sim.refl {s : GState n} (h : PureOK s) : Sim s s := ⟨rfl, rfl, rfl, rfl, rfl, rfl, rfl, rfl, rfl, h⟩

theorem Sim.trans {a b c : GState n} (h1 : Sim a b) (h2 : Sim b c) : Sim a c :=
  ⟨h2.1.trans h1.1, h2.2.trans h1.2, h2.3.trans h1.3, h2.4.trans h1.4, h2.5.trans h1.5, h2.6.trans h1.6,
    h2.7.trans h1.7, h2.8.trans h1.8, h2.9.trans h1.9, h2.10⟩

theorem isDirected_spec {s : GState n} (h : PureOK s) :
    s.isDirected.1 = PyGSP.isDirected s.W ∧ Sim s s.isDirected.2 := by
  unfold isDirected
  split
  · rename_i b hb; exact ⟨h.directed b hb, Sim.refl h⟩
  · refine ⟨rfl, rfl, rfl, rfl, rfl, rfl, rfl, rfl, rfl, rfl, ⟨?_, h.2, h.3, h.4, h.5⟩⟩
    intro b hb; simpa using hb.symm

theorem getDw_spec {s : GState n} (h : PureOK s) :
    s.getDw.1 = PyGSP.dw s.W ∧ Sim s s.getDw.2 := by
  unfold getDw
  split
  · rename_i b hb; exact ⟨h.dw b hb, Sim.refl h⟩
  · obtain ⟨h1, h2⟩ := isDirected_spec h
    have hW : s.isDirected.2.W = s.W := congrArg Graph.W h2.base
    have hv : (fun i => if s.isDirected.1 = true then ((∑ j, s.isDirected.2.W.dense j i) + ∑ j, s.isDirected.2.W.dense i j) / 2
        else ∑ j, s.isDirected.2.W.dense j i) = PyGSP.dw s.W := by
      funext i
      rw [h1, hW]
      rfl
    simp only
    rw [hv]
    refine ⟨rfl, h2.1, h2.2, h2.3, h2.4, h2.5, h2.6, h2.7, h2.8, h2.9, ?_⟩
    have hp := h2.pure
    refine ⟨hp.1, hp.2, hp.3, hp.4, ?_⟩
    intro v hv
    simp only [Option.some.injEq] at hv
    rw [← hv, ← hW]

theorem getD_spec {s : GState n} (h : PureOK s) :
    s.getD.1 = degree s.W ∧ Sim s s.getD.2 := by
  unfold getD
  split
  · rename_i b hb; exact ⟨h.d b hb, Sim.refl h⟩
  · obtain ⟨h1, h2⟩ := isDirected_spec h
    have hW : s.isDirected.2.W = s.W := congrArg Graph.W h2.base
    have hv : (fun i => if s.isDirected.1 = true then ((s.isDirected.2.W.colNnz i : ℝ) + (s.isDirected.2.W.rowNnz i : ℝ)) / 2
        else (s.isDirected.2.W.rowNnz i : ℝ)) = degree s.W := by
      funext i
      rw [h1, hW]
      rfl
    simp only
    rw [hv]
    refine ⟨rfl, h2.1, h2.2, h2.3, h2.4, h2.5, h2.6, h2.7, h2.8, h2.9, ?_⟩
    have hp := h2.pure
    refine ⟨hp.1, hp.2, hp.3, ?_, hp.5⟩
    intro v hv
    simp only [Option.some.injEq] at hv
    rw [← hv, ← hW]

theorem getA_spec {s : GState n} (h : PureOK s) :
    s.getA.1 = posAdj s.W ∧ Sim s s.getA.2 := by
  unfold getA
  split
  · rename_i b hb; exact ⟨h.adj b hb, Sim.refl h⟩
  · refine ⟨rfl, rfl, rfl, rfl, rfl, rfl, rfl, rfl, rfl, rfl, ⟨h.1, h.2, ?_, h.4, h.5⟩⟩
    intro b hb; simpa using hb.symm

theorem isConnected_spec {s : GState n} (h : PureOK s) (hb : s.base.Built) (hn : 0 < n) (pop : Pop n) :
    ∃ b, (s.isConnected pop).1 = .ok b ∧ (b = true ↔ StronglyConnected s.W.dense) ∧ Sim s (s.isConnected pop).2 := by
  unfold isConnected
  split
  · rename_i b hb'; exact ⟨b, rfl, h.connected b hb', Sim.refl h⟩
  · obtain ⟨h1, h2⟩ := isDirected_spec h
    have hW : s.isDirected.2.W = s.W := congrArg Graph.W h2.base
    obtain ⟨b, hb1, hb2⟩ := C05_is_connected_iff s.base hb hn pop
    unfold PyGSP.isConnected at hb1
    rw [dif_pos hn] at hb1
    simp only [Except.ok.injEq] at hb1
    refine ⟨b, ?_, hb2, ?_⟩
    · simp only [dif_pos hn]
      rw [h1, hW]
      exact congrArg _ hb1
    · simp only [dif_pos hn]
      refine ⟨h2.1, h2.2, h2.3, h2.4, h2.5, h2.6, h2.7, h2.8, h2.9, ?_⟩
      have hp := h2.pure
      refine ⟨hp.1, ?_, hp.3, hp.4, hp.5⟩
      intro b' hb'
      simp only [Option.some.injEq] at hb'
      rw [h1, hW] at hb'
      have : b' = b := by rw [← hb', ← hb1]
      rw [this]
      show _ ↔ StronglyConnected s.isDirected.2.W.dense
      rw [hW]; exact hb2

theorem isConnected_sim {s : GState n} (h : PureOK s) (hb : s.base.Built) (pop : Pop n) :
    Sim s (s.isConnected pop).2 := by
  rcases Nat.eq_zero_or_pos n with rfl | hn
  · unfold isConnected
    split
    · exact Sim.refl h
    · simp only [lt_self_iff_false, dif_neg, not_false_iff]
      exact (isDirected_spec h).2
  · obtain ⟨b, -, -, h⟩ := isConnected_spec h hb hn pop
    exact h

theorem getEdgeList_spec {s : GState n} (h : PureOK s) :
    s.getEdgeList.1 = s.base.getEdgeList ∧ Sim s s.getEdgeList.2 := by
  obtain ⟨h1, h2⟩ := isDirected_spec h
  have hW : s.isDirected.2.W = s.W := congrArg Graph.W h2.base
  unfold getEdgeList
  simp only
  refine ⟨?_, h2⟩
  unfold Graph.getEdgeList
  rw [h1, hW, h2.base]

/-- The graph with the current Laplacian type. -/
def cur (s : GState n) : Graph n ℝ := { s.base with lapType := s.lapType }

theorem cur_edgeList (s : GState n) : s.cur.getEdgeList = s.base.getEdgeList := rfl

theorem lapWith_eq (W : Sp n n ℝ) : (if PyGSP.isDirected W = true then symAverage W.dense else W.dense) = lapWeights W := rfl

theorem edgeBounds_spec {s : GState n} (h : PureOK s) :
    (s.edgeBounds (PyGSP.dw s.W)).1 = s.cur.edgeBounds ∧ Sim s (s.edgeBounds (PyGSP.dw s.W)).2 := by
  obtain ⟨h1, h2⟩ := getEdgeList_spec h
  unfold edgeBounds Graph.edgeBounds
  show _ = (if s.base.nEdges > 0 then _ else _) ∧ _
  split
  · simp only [h1, cur_edgeList]
    cases s.base.getEdgeList with
    | error e => exact ⟨rfl, h2⟩
    | ok es =>
      simp only [bind, Except.bind]
      rw [show s.cur.W = s.W from rfl]
      cases npMax (es.map fun e => PyNum.fin (PyGSP.dw s.W e.1 + PyGSP.dw s.W e.2.1)) with
      | error e => exact ⟨rfl, h2⟩
      | ok b => exact ⟨rfl, h2⟩
  · exact ⟨rfl, Sim.refl h⟩

theorem upperBound_spec {s : GState n} (h : PureOK s) :
    s.upperBound.1 = s.cur.upperBound ∧ Sim s s.upperBound.2 := by
  unfold upperBound Graph.upperBound
  have hcur : s.cur.lapType = s.lapType := rfl
  rw [hcur]
  cases hlt : s.lapType with
  | normalized => exact ⟨rfl, Sim.refl h⟩
  | other nm => exact ⟨rfl, Sim.refl h⟩
  | combinatorial =>
    simp only
    have hcW : s.cur.W = s.W := rfl
    rw [hcW]
    cases npMax ((List.finRange n).flatMap fun i => (List.finRange n).map fun j => PyNum.fin (s.W.dense i j)) with
    | error e => exact ⟨rfl, Sim.refl h⟩
    | ok wmax =>
      obtain ⟨h1, h2⟩ := getDw_spec h
      have hW2 : s.getDw.2.W = s.W := congrArg Graph.W h2.base
      simp only [h1]
      simp only [bind, Except.bind]
      cases npMax ((List.finRange n).map fun i => PyNum.fin (PyGSP.dw s.W i)) with
      | error e => exact ⟨rfl, h2⟩
      | ok dmax =>
        simp only
        obtain ⟨h3, h4⟩ := edgeBounds_spec h2.pure
        rw [hW2] at h3 h4
        have h3' : (s.getDw.2.edgeBounds (PyGSP.dw s.W)).1 = s.cur.edgeBounds := by
          rw [h3]; unfold cur; rw [h2.base, h2.lapType]
        have hp2 := h2.trans h4
        generalize s.getDw.2.edgeBounds (PyGSP.dw s.W) = p at h3' hp2
        have hp1 := h3'
        have hW3 : p.2.W = s.W := congrArg Graph.W hp2.base
        have hd := isDirected_spec hp2.pure
        have hW4 : p.2.isDirected.2.W = s.W := (congrArg Graph.W hd.2.base).trans hW3
        rw [← hp1]
        cases hq : p.1 with
        | error e => exact ⟨rfl, hp2⟩
        | ok b3 =>
          simp only
          rw [hd.1, hW4, hW3, lapWith_eq]
          cases npMax ((List.finRange n).map fun i => PyNum.fin (PyGSP.dw s.W i) + npDiv (∑ j, lapWeights s.W i j * PyGSP.dw s.W j) (PyGSP.dw s.W i)) with
          | error e => exact ⟨rfl, hp2.trans hd.2⟩
          | ok b4 => exact ⟨rfl, hp2.trans hd.2⟩

/-! ### the invariant -/

/-- `lt` is one of the two known types -/
def Known (lt : LapType) : Prop := lt = .combinatorial ∨ lt = .normalized

/-- `U` holds orthonormal eigenvectors of `L` and `e` the eigenvalues, up to the correction of the smallest one. -/
def BasisOK (L : Matrix (Fin n) (Fin n) ℝ) (b : Basis n) : Prop :=
  ∃ e0, IsEigenPairs L e0 b.U ∧ Monotone e0 ∧ (0 < b.k → ∃ j, ∀ l, IsEigenvalue L l → |e0 j| ≤ |l|) ∧
    (b.e = e0 ∨ ∃ h : 0 < b.k, |e0 ⟨0, h⟩| < 1 / 10 ^ 5 ∧ b.e = Function.update e0 ⟨0, h⟩ 0)

/-- what a stored `lmax` can be -/
def LmaxOK (S : Solvers n) (s : GState n) (v : PyNum ℝ) : Prop :=
  s.cur.upperBound = .ok v ∨
  (∃ r t, S.eigshLM t s.L = some r ∧ 1 < n ∧ v = .fin (r * (101 / 100))) ∨
  (∃ b : Basis n, s.basis = some b ∧ b.k = n ∧ ∃ h : 0 < b.k, v = .fin (b.e ⟨b.k - 1, by omega⟩))

structure Inv (S : Solvers n) (s : GState n) : Prop where
  built : s.base.Built
  pure : PureOK s
  lap : ∃ lt, Known lt ∧ laplacian s.W lt = .ok s.L ∧ (Known s.lapType → lt = s.lapType)
  diff : ∀ D, s.D = some D → s.cur.diffOp = .ok D
  basis : ∀ b, s.basis = some b → BasisOK s.L b
  coh : ∀ c, s.coherence = some c → ∃ b, s.basis = some b ∧ b.k = n ∧
    (∀ i j, |b.U i j| ≤ c) ∧ ∃ i j, |b.U i j| = c
  lmax : ∀ v, s.lmax = some v → LmaxOK S s v

theorem cur_of_sim {s s' : GState n} (h : Sim s s') : s'.cur = s.cur := by
  unfold cur; rw [h.base, h.lapType]

theorem Inv.sim {s s' : GState n} (hi : Inv S s) (h : Sim s s') : Inv S s' := by
  have hW : s'.W = s.W := congrArg Graph.W h.base
  refine ⟨by rw [h.base]; exact hi.built, h.pure, ?_, ?_, ?_, ?_, ?_⟩
  · rw [hW, h.L, h.lapType]; exact hi.lap
  · rw [h.D, cur_of_sim h]; exact hi.diff
  · rw [h.basis, h.L]; exact hi.basis
  · rw [h.basis, h.coherence]; exact hi.coh
  · rw [h.lmax]
    intro v hv
    unfold LmaxOK
    rw [cur_of_sim h, h.L, h.basis]
    exact hi.lmax v hv

theorem Inv.symm {s : GState n} (hi : Inv S s) (hW : NonnegW s.W.dense) : ∀ i j, s.L i j = s.L j i := by
  obtain ⟨lt, hlt, h, -⟩ := hi.lap
  rcases hlt with rfl | rfl
  · obtain ⟨L, h1, h2, -⟩ := C10_combinatorial s.W
    rw [h] at h1; cases h1; exact h2
  · obtain ⟨L, h1, -, -, h2, -⟩ := C12_normalized s.W hW
    rw [h] at h1; cases h1; exact h2

/-- in the model the Laplacian is always symmetric, whatever the signs -/
theorem laplacian_symm (W : Sp n n ℝ) (lt : LapType) (L) (h : laplacian W lt = .ok L) : ∀ i j, L i j = L j i := by
  cases lt
  · rw [laplacian_comb] at h; cases h; exact combLap_symm _
  · simp only [laplacian, Except.ok.injEq] at h
    subst h
    intro i j
    simp only [Matrix.of_apply, Matrix.sub_apply, Matrix.one_apply, Matrix.mul_diagonal, Matrix.diagonal_mul,
      lapWeights_apply]
    by_cases hij : i = j
    · subst hij; rfl
    · have hij' : ¬ j = i := fun h => hij h.symm
      simp only [hij, hij', false_and, if_false]
      rw [wsym_comm]
      ring
  · simp [laplacian] at h

theorem Inv.L_symm {s : GState n} (hi : Inv S s) : ∀ i j, s.L i j = s.L j i := by
  obtain ⟨lt, hlt, h, -⟩ := hi.lap
  exact laplacian_symm _ _ _ h

theorem computeLaplacian_inv {s : GState n} (hi : Inv S s) (lt : LapType) : Inv S (s.computeLaplacian lt).2 := by
  unfold computeLaplacian
  simp only
  -- the state after the resets
  set s1 : GState n := { (if lt ≠ s.lapType then
      { s with lmax := none, basis := none, coherence := none, D := none } else s) with lapType := lt } with hs1
  have hb1 : s1.base = s.base := by rw [hs1]; simp only; split <;> rfl
  have hL1 : s1.L = s.L := by rw [hs1]; simp only; split <;> rfl
  have hW1 : s1.W = s.W := congrArg Graph.W hb1
  have hp1 : PureOK s1 := by
    have := hi.pure
    rw [hs1]
    simp only
    split <;> exact ⟨this.1, this.2, this.3, this.4, this.5⟩
  obtain ⟨hd1, hd2⟩ := isDirected_spec hp1
  -- consequences of a change of type
  have hchg : lt ≠ s.lapType → s1.lmax = none ∧ s1.basis = none ∧ s1.coherence = none ∧ s1.D = none := by
    intro h
    rw [hs1]; simp only; rw [if_pos h]
    exact ⟨rfl, rfl, rfl, rfl⟩
  have hsame : lt = s.lapType → s1 = s := by
    intro h
    rw [hs1]; simp only; rw [if_neg (by simp [h])]
    cases s; simp_all
  -- rebuild the invariant for a state equal to s1 except for caches and for `L = L'`, `L'` the Laplacian of type lt
  have key : ∀ s' : GState n, (∀ L', laplacian s.W lt = .ok L' → Sim { s1 with L := L' } s') → Known lt → Inv S s' := by
    intro s' hs' hk
    obtain ⟨L', hL'⟩ : ∃ L', laplacian s.W lt = .ok L' := by
      rcases hk with rfl | rfl <;> exact ⟨_, rfl⟩
    have hsim := hs' L' hL'
    refine Inv.sim ?_ hsim
    have hp : PureOK { s1 with L := L' } := ⟨hp1.1, hp1.2, hp1.3, hp1.4, hp1.5⟩
    by_cases hc : lt = s.lapType
    · have e := hsame hc
      obtain ⟨lt0, h1, h2, h3⟩ := hi.lap
      have : lt0 = lt := by rw [hc]; exact h3 (hc ▸ hk)
      subst this
      rw [h2] at hL'
      cases hL'
      have : { s1 with L := s.L } = s := by rw [e]
      rw [this]; exact hi
    · obtain ⟨e1, e2, e3, e4⟩ := hchg hc
      refine ⟨by show s1.base.Built; rw [hb1]; exact hi.built, hp, ⟨lt, hk, ?_, fun _ => rfl⟩, ?_, ?_, ?_, ?_⟩
      · show laplacian s1.W lt = _; rw [hW1]; exact hL'
      · intro D hD; change s1.D = _ at hD; rw [e4] at hD; simp at hD
      · intro D hD; change s1.basis = _ at hD; rw [e2] at hD; simp at hD
      · intro D hD; change s1.coherence = _ at hD; rw [e3] at hD; simp at hD
      · intro D hD; change s1.lmax = _ at hD; rw [e1] at hD; simp at hD
  have hWd : s1.isDirected.2.W = s.W := (congrArg Graph.W hd2.base).trans hW1
  obtain ⟨hw1, hw2⟩ := getDw_spec hd2.pure
  have h12 := hd2.trans hw2
  cases lt with
  | combinatorial =>
    refine key _ (fun L' hL' => ?_) (.inl rfl)
    simp only
    have : Matrix.diagonal s1.isDirected.2.getDw.1 - (if s1.isDirected.1 = true then symAverage s1.isDirected.2.W.dense
        else s1.isDirected.2.W.dense) = L' := by
      rw [hw1, hWd, hd1, hW1, lapWith_eq]
      simpa [laplacian] using hL'
    rw [this]
    have hp := h12.pure
    exact ⟨h12.1, h12.2, rfl, h12.4, h12.5, h12.6, h12.7, h12.8, h12.9, ⟨hp.1, hp.2, hp.3, hp.4, hp.5⟩⟩
  | normalized =>
    refine key _ (fun L' hL' => ?_) (.inr rfl)
    simp only
    rw [hw1, hWd, hd1, hW1, lapWith_eq]
    simp only [laplacian, Except.ok.injEq] at hL'
    have hp := h12.pure
    exact ⟨h12.1, h12.2, hL', h12.4, h12.5, h12.6, h12.7, h12.8, h12.9, ⟨hp.1, hp.2, hp.3, hp.4, hp.5⟩⟩
  | other nm =>
    simp only
    refine Inv.sim ?_ hd2
    by_cases hc : LapType.other nm = s.lapType
    · rw [hsame hc]; exact hi
    · obtain ⟨e1, e2, e3, e4⟩ := hchg hc
      refine ⟨by rw [hb1]; exact hi.built, hp1, ?_, ?_, ?_, ?_, ?_⟩
      · obtain ⟨lt0, h1, h2, h3⟩ := hi.lap
        refine ⟨lt0, h1, by rw [hW1, hL1]; exact h2, ?_⟩
        intro h
        exfalso
        have : s1.lapType = LapType.other nm := rfl
        rw [this] at h
        rcases h with h | h <;> simp at h
      · intro D hD; rw [e4] at hD; simp at hD
      · intro D hD; rw [e2] at hD; simp at hD
      · intro D hD; rw [e3] at hD; simp at hD
      · intro D hD; rw [e1] at hD; simp at hD

theorem estimateLmax_inv {S : Solvers n} {s : GState n} (hi : Inv S s) (m : LmaxMethod) :
    Inv S (s.estimateLmax S m).2 := by
  unfold estimateLmax
  split
  · exact hi
  · set s1 : GState n := { s with lmaxMethod := some m } with hs1
    have hi1 : Inv S s1 := ⟨hi.1, ⟨hi.2.1, hi.2.2, hi.2.3, hi.2.4, hi.2.5⟩, hi.3, hi.4, hi.5, hi.6, hi.7⟩
    cases m with
    | lanczos =>
      simp only
      split
      · exact hi1
      · rename_i hn1
        set s2 : GState n := { s1 with calls := s1.calls + 1 } with hs2
        have hi2 : Inv S s2 := ⟨hi1.1, ⟨hi1.2.1, hi1.2.2, hi1.2.3, hi1.2.4, hi1.2.5⟩, hi1.3, hi1.4, hi1.5, hi1.6, hi1.7⟩
        split
        · exact hi2
        · rename_i r hr
          obtain ⟨hu1, hu2⟩ := upperBound_spec hi2.pure
          have hi3 := hi2.sim hu2
          split
          · exact hi3
          · split
            · refine ⟨hi3.1, ⟨hi3.2.1, hi3.2.2, hi3.2.3, hi3.2.4, hi3.2.5⟩, hi3.3, hi3.4, hi3.5, hi3.6, ?_⟩
              intro v hv
              simp only [Option.some.injEq] at hv
              refine .inr (.inl ⟨r, s1.calls, ?_, by omega, hv.symm⟩)
              show S.eigshLM s1.calls s2.upperBound.2.L = some r
              rw [hu2.L]; exact hr
            · exact hi3
    | bounds =>
      simp only
      obtain ⟨hu1, hu2⟩ := upperBound_spec hi1.pure
      have hi3 := hi1.sim hu2
      split
      · exact hi3
      · rename_i ub hub
        refine ⟨hi3.1, ⟨hi3.2.1, hi3.2.2, hi3.2.3, hi3.2.4, hi3.2.5⟩, hi3.3, hi3.4, hi3.5, hi3.6, ?_⟩
        intro v hv
        simp only [Option.some.injEq] at hv
        refine .inl ?_
        show s1.upperBound.2.cur.upperBound = _
        rw [cur_of_sim hu2, ← hu1, hub, hv]
    | fourier => exact hi1
    | other nm => exact hi1

theorem getLmax_inv {S : Solvers n} {s : GState n} (hi : Inv S s) : Inv S (s.getLmax S).2 := by
  unfold getLmax
  split
  · exact hi
  · simp only
    split
    · exact estimateLmax_inv hi _
    · exact estimateLmax_inv hi _

theorem decompose_ok {S : Solvers n} (hS : Sound S) {s : GState n} (hi : Inv S s) {ne : ℕ} {b : Basis n}
    (h : s.decompose S ne = .ok b) : b.k = ne ∧ IsEigenPairs s.L b.e b.U ∧ Monotone b.e ∧
      (0 < b.k → ∃ j, ∀ l, IsEigenvalue s.L l → |b.e j| ≤ |l|) := by
  unfold decompose at h
  split at h
  · rename_i hne
    cases h
    obtain ⟨h1, h2⟩ := hS.eigh s.calls s.L hi.L_symm
    refine ⟨hne.symm, h1, h2, fun hk => ?_⟩
    haveI : Nonempty (Fin n) := ⟨⟨0, hk⟩⟩
    obtain ⟨m, -, hm⟩ := Finset.exists_min_image Finset.univ (fun i => |(S.eigh s.calls s.L).1 i|) Finset.univ_nonempty
    refine ⟨m, fun l hl => ?_⟩
    obtain ⟨i, hi'⟩ := h1.complete hi.L_symm hl
    rw [← hi']
    exact hm i (Finset.mem_univ _)
  · split at h
    · simp at h
    · split at h
      · simp at h
      · rename_i h1 h2 h3
        split at h
        · simp at h
        · rename_i r hr
          cases h
          obtain ⟨a, b, c⟩ := hS.eigshSM ne s.calls s.L hi.L_symm (by omega) (by omega) r hr
          exact ⟨rfl, a, b, fun _ => c⟩

theorem npMax_abs {k : ℕ} (hn : 0 < n) (hk : 0 < k) (U : Matrix (Fin n) (Fin k) ℝ) :
    ∃ c, npMax ((List.finRange n).flatMap fun i => (List.finRange k).map fun j => PyNum.fin |U i j|) = .ok (.fin c) ∧
      (∀ i j, |U i j| ≤ c) ∧ ∃ i j, |U i j| = c := by
  obtain ⟨m, h1, h2, h3⟩ := npMax_fin ((List.finRange n).flatMap fun i => (List.finRange k).map fun j => |U i j|) (by
    intro h
    rw [List.flatMap_eq_nil_iff] at h
    have := h ⟨0, hn⟩ (List.mem_finRange _)
    simp at this; omega)
  rw [List.map_flatMap] at h1
  simp only [List.map_map, Function.comp_def] at h1
  refine ⟨m, h1, fun i j => h3 _ ?_, ?_⟩
  · rw [List.mem_flatMap]
    exact ⟨i, List.mem_finRange _, List.mem_map.2 ⟨j, List.mem_finRange _, rfl⟩⟩
  · rw [List.mem_flatMap] at h2
    obtain ⟨i, -, hi⟩ := h2
    obtain ⟨j, -, hj⟩ := List.mem_map.1 hi
    exact ⟨i, j, hj⟩

theorem signFix_eq {k : ℕ} (U : Matrix (Fin n) (Fin k) ℝ) (j0 : Fin k) :
    (Matrix.of fun i j => if ∃ h : 0 < n, |U ⟨0, h⟩ j0| < 0 ∧ i = ⟨0, h⟩ then -U i j else U i j) = U := by
  ext i j
  simp only [Matrix.of_apply]
  rw [if_neg]
  rintro ⟨h, h1, -⟩
  exact absurd h1 (not_lt.2 (abs_nonneg _))

/-- no column if no row -/
theorem Spec.IsEigenPairs.rows_pos {k : ℕ} {L : Matrix (Fin n) (Fin n) ℝ} {e : Fin k → ℝ}
    {U : Matrix (Fin n) (Fin k) ℝ} (h : IsEigenPairs L e U) (hk : 0 < k) : 0 < n := by
  by_contra hn
  have : n = 0 := by omega
  subst this
  apply h.col_ne_zero ⟨0, hk⟩
  funext i; exact i.elim0

/-- Storing a freshly computed basis keeps the invariant (when the cached one was not complete). -/
theorem Inv.setBasis {s : GState n} (hi : Inv S s) (b : Basis n) (hb : BasisOK s.L b)
    (hnf : ∀ b', s.basis = some b' → b'.k ≠ n) (c : ℕ) : Inv S { s with basis := some b, calls := c } := by
  refine ⟨hi.1, ⟨hi.2.1, hi.2.2, hi.2.3, hi.2.4, hi.2.5⟩, hi.3, hi.4, ?_, ?_, ?_⟩
  · intro b' hb'
    simp only [Option.some.injEq] at hb'
    rw [← hb']; exact hb
  · intro c' hc'
    obtain ⟨b', h1, h2, -⟩ := hi.coh c' hc'
    exact absurd h2 (hnf b' h1)
  · intro v hv
    rcases hi.lmax v hv with h | h | ⟨b', h1, h2, -⟩
    · exact .inl h
    · exact .inr (.inl h)
    · exact absurd h2 (hnf b' h1)

/-- `checkBasis` on a freshly computed basis: the invariant is kept, and what it means to succeed. -/
theorem checkBasis_spec {s : GState n} (hi : Inv S s) {ne : ℕ} {b : Basis n} (hne : b.k = ne)
    (hbas : s.basis = some b) (hb : IsEigenPairs s.L b.e b.U) (hmono : Monotone b.e)
    (hmin : 0 < b.k → ∃ j, ∀ l, IsEigenvalue s.L l → |b.e j| ≤ |l|) (hcoh : s.coherence = none)
    (hlm : ∀ v, s.lmax = some v → s.cur.upperBound = .ok v ∨
      (∃ r t, S.eigshLM t s.L = some r ∧ 1 < n ∧ v = .fin (r * (101 / 100))))
    (hk : 0 < b.k) :
    Inv S (s.checkBasis ne b hk).2 ∧
    ((s.checkBasis ne b hk).1 = .ok () →
      (s.checkBasis ne b hk).2.basis = some ⟨b.k, Function.update b.e ⟨0, hk⟩ 0, b.U⟩ ∧
      (ne = n → (s.checkBasis ne b hk).2.lmax = some (.fin (Function.update b.e ⟨0, hk⟩ 0 ⟨b.k - 1, by omega⟩)) ∧
        (s.checkBasis ne b hk).2.lmaxMethod = some .fourier ∧ (s.checkBasis ne b hk).2.coherence.isSome)) := by
  unfold checkBasis
  rw [signFix_eq]
  split
  · rename_i he0
    set e := Function.update b.e ⟨0, hk⟩ 0 with he
    set s1 : GState n := { s with basis := some ⟨b.k, e, b.U⟩ } with hs1
    have hbok : BasisOK s.L ⟨b.k, e, b.U⟩ := ⟨b.e, hb, hmono, hmin, .inr ⟨hk, abs_lt.2 he0, rfl⟩⟩
    have hi1 : Inv S s1 := by
      refine ⟨hi.1, ⟨hi.2.1, hi.2.2, hi.2.3, hi.2.4, hi.2.5⟩, hi.3, hi.4, ?_, ?_, ?_⟩
      · intro b' hb'
        simp only [hs1, Option.some.injEq] at hb'
        rw [← hb']; exact hbok
      · intro c' hc'
        change s.coherence = _ at hc'
        rw [hcoh] at hc'; simp at hc'
      · intro v hv
        rcases hlm v hv with h | h
        · exact .inl h
        · exact .inr (.inl h)
    obtain ⟨hu1, hu2⟩ := upperBound_spec hi1.pure
    have hi2 := hi1.sim hu2
    simp only
    split
    · exact ⟨hi2, by simp⟩
    · split
      · split
        · split
          · rename_i hnn
            obtain ⟨c, hc1, hc2, hc3⟩ := npMax_abs (Spec.IsEigenPairs.rows_pos hb hk) hk b.U
            rw [hc1]
            simp only
            refine ⟨?_, fun _ => ⟨?_, fun _ => by simp⟩⟩
            · refine ⟨hi2.1, ⟨hi2.2.1, hi2.2.2, hi2.2.3, hi2.2.4, hi2.2.5⟩, hi2.3, hi2.4, hi2.5, ?_, ?_⟩
              · intro c' hc'
                simp only [Option.some.injEq] at hc'
                subst hc'
                exact ⟨⟨b.k, e, b.U⟩, hu2.basis, hne.trans hnn, hc2, hc3⟩
              · intro v hv
                simp only [Option.some.injEq] at hv
                exact .inr (.inr ⟨⟨b.k, e, b.U⟩, hu2.basis, hne.trans hnn, hk, hv.symm⟩)
            · exact hu2.basis
          · rename_i hnn
            exact ⟨hi2, fun _ => ⟨hu2.basis, fun h => absurd h hnn⟩⟩
        · exact ⟨hi2, by simp⟩
      · exact ⟨hi2, by simp⟩
  · exact ⟨hi, by simp⟩

/-- `compute_fourier_basis` keeps the invariant. -/
theorem computeFourierBasis_inv {S : Solvers n} (hS : Sound S) {s : GState n} (hi : Inv S s) (k : Option ℕ) :
    Inv S (s.computeFourierBasis S k).2 := by
  unfold computeFourierBasis
  simp only
  split
  · exact hi
  · rename_i hcache
    split
    · exact ⟨hi.1, ⟨hi.2.1, hi.2.2, hi.2.3, hi.2.4, hi.2.5⟩, hi.3, hi.4, hi.5, hi.6, hi.7⟩
    · rename_i b hb
      obtain ⟨h1, h2, h3, h4⟩ := decompose_ok hS hi hb
      have hle : k.getD n ≤ n := by
        unfold decompose at hb
        by_contra hc
        rw [if_neg (by omega), if_neg (by omega), if_pos (by omega)] at hb
        simp at hb
      have hnf : ∀ b', s.basis = some b' → b'.k ≠ n := by
        intro b' hb' hkn
        simp [hasBasis, hb'] at hcache
        omega
      have hi1 := hi.setBasis b ⟨b.e, h2, h3, h4, .inl rfl⟩ hnf (s.calls + 1)
      split
      · rename_i hk
        refine (checkBasis_spec hi1 h1 rfl h2 h3 h4 ?_ ?_ hk).1
        · cases hc : s.coherence with
          | none => rfl
          | some c =>
            obtain ⟨b', e1, e2, -⟩ := hi.coh c hc
            exact absurd e2 (hnf b' e1)
        · intro v hv
          rcases hi.lmax v hv with h | h | ⟨b', e1, e2, -⟩
          · exact .inl h
          · exact .inr h
          · exact absurd e2 (hnf b' e1)
      · exact hi1

theorem getBasis_inv {S : Solvers n} (hS : Sound S) {s : GState n} (hi : Inv S s) : Inv S (s.getBasis S).2 := by
  unfold getBasis
  split
  · exact hi
  · simp only
    split <;> exact computeFourierBasis_inv hS hi none

theorem getCoherence_inv {S : Solvers n} (hS : Sound S) {s : GState n} (hi : Inv S s) : Inv S (s.getCoherence S).2 := by
  unfold getCoherence
  split
  · exact hi
  · simp only
    split <;> exact computeFourierBasis_inv hS hi none

/-- `compute_differential_operator`. -/
theorem computeDiff_spec {s : GState n} (hi : Inv S s) :
    Inv S s.computeDiff.2 ∧ s.computeDiff.1 = (match s.cur.diffOp with | .error e => .error e | .ok _ => .ok ()) ∧
    (∀ D, s.cur.diffOp = .ok D → s.computeDiff.2.D = some D) ∧
    (∀ e, s.computeDiff.1 = .error e → Sim s s.computeDiff.2) := by
  obtain ⟨h1, h2⟩ := getEdgeList_spec hi.pure
  have hi1 := hi.sim h2
  unfold computeDiff Graph.diffOp
  simp only
  rw [h1, cur_edgeList]
  cases hes : s.base.getEdgeList with
  | error e => exact ⟨hi1, rfl, by simp, fun _ _ => h2⟩
  | ok es =>
    simp only
    rw [h2.lapType, show s.cur.lapType = s.lapType from rfl]
    -- the common part: any state `t` similar to `s`, any degrees that are right when needed
    have key : ∀ (t : GState n) (dwv : Fin n → ℝ), Sim s t → Known s.lapType →
        (s.lapType = .normalized → dwv = PyGSP.dw s.W) →
        Inv S { t.isDirected.2 with D := some ⟨es.length, (Sp.eliminateZeros (Sp.sumDuplicates
        ⟨((List.finRange es.length).map fun k => ((es.get k).1, k, (diffValuesWith t.isDirected.1 dwv s.lapType (es.get k)).1)) ++
         ((List.finRange es.length).map fun k => ((es.get k).2.1, k, (diffValuesWith t.isDirected.1 dwv s.lapType (es.get k)).2))⟩) : Sp n es.length ℝ)⟩ } ∧
        (Sp.eliminateZeros (Sp.sumDuplicates
        ⟨((List.finRange es.length).map fun k => ((es.get k).1, k, (diffValuesWith t.isDirected.1 dwv s.lapType (es.get k)).1)) ++
         ((List.finRange es.length).map fun k => ((es.get k).2.1, k, (diffValuesWith t.isDirected.1 dwv s.lapType (es.get k)).2))⟩) : Sp n es.length ℝ)
          = diffMatrix s.W s.lapType es := by
      intro t dwv ht hk hdw
      obtain ⟨hd1, hd2⟩ := isDirected_spec ht.pure
      have htW : t.W = s.W := congrArg Graph.W ht.base
      have hv : diffValuesWith t.isDirected.1 dwv s.lapType = diffValues s.W s.lapType := by
        funext e
        unfold diffValuesWith diffValues
        rw [hd1, htW]
        rcases hk with h | h
        · rw [h]
        · rw [h, hdw h]
      rw [hv]
      have hm : (Sp.eliminateZeros (Sp.sumDuplicates
        ⟨((List.finRange es.length).map fun k => ((es.get k).1, k, (diffValues s.W s.lapType (es.get k)).1)) ++
         ((List.finRange es.length).map fun k => ((es.get k).2.1, k, (diffValues s.W s.lapType (es.get k)).2))⟩) : Sp n es.length ℝ)
          = diffMatrix s.W s.lapType es := rfl
      rw [hm]
      have hsim := ht.trans hd2
      have hi2 := hi.sim hsim
      refine ⟨⟨hi2.1, ⟨hi2.2.1, hi2.2.2, hi2.2.3, hi2.2.4, hi2.2.5⟩, hi2.3, ?_, hi2.5, hi2.6, hi2.7⟩, rfl⟩
      intro D hD
      simp only [Option.some.injEq] at hD
      rw [← hD]
      show t.isDirected.2.cur.diffOp = _
      rw [cur_of_sim hsim]
      unfold Graph.diffOp
      rw [cur_edgeList, hes, show s.cur.lapType = s.lapType from rfl]
      rcases hk with h | h <;> rw [h] <;> rfl
    cases hlt : s.lapType with
    | other nm => exact ⟨hi1, rfl, by simp, fun _ _ => h2⟩
    | combinatorial =>
      rw [hlt] at key
      obtain ⟨k1, k2⟩ := key s.getEdgeList.2 (fun _ => 0) h2 (.inl rfl) (by simp)
      refine ⟨k1, rfl, ?_, by simp⟩
      intro D hD
      simp only [Except.ok.injEq] at hD
      simp only
      rw [k2]
      exact congrArg some hD
    | normalized =>
      rw [hlt] at key
      obtain ⟨hw1, hw2⟩ := getDw_spec h2.pure
      have hW2 : s.getEdgeList.2.W = s.W := congrArg Graph.W h2.base
      obtain ⟨k1, k2⟩ := key s.getEdgeList.2.getDw.2 s.getEdgeList.2.getDw.1 (h2.trans hw2) (.inr rfl)
        (fun _ => by rw [hw1, hW2])
      refine ⟨k1, rfl, ?_, by simp⟩
      intro D hD
      simp only [Except.ok.injEq] at hD
      simp only
      rw [k2]
      exact congrArg some hD

theorem getDiff_spec {s : GState n} (hi : Inv S s) :
    Inv S s.getDiff.2 ∧ (∀ D, s.cur.diffOp = .ok D → s.getDiff.1 = .ok (some D)) := by
  obtain ⟨h1, h2, h3, -⟩ := computeDiff_spec hi
  unfold getDiff
  split
  · rename_i D hD
    refine ⟨hi, fun D' hD' => ?_⟩
    have := hi.diff D hD
    rw [this] at hD'
    cases hD'; rfl
  · simp only
    refine ⟨by split <;> exact h1, fun D hD => ?_⟩
    rw [h2, hD]
    simp only
    rw [h3 D hD]

theorem run_inv {S : Solvers n} (hS : Sound S) {s : GState n} (hi : Inv S s) (op : Op n) : Inv S (op.run S s).2 := by
  cases op with
  | isDirected => exact hi.sim (isDirected_spec hi.pure).2
  | isConnected pop => exact hi.sim (isConnected_sim hi.pure hi.built pop)
  | getA => exact hi.sim (getA_spec hi.pure).2
  | getD => exact hi.sim (getD_spec hi.pure).2
  | getDw => exact hi.sim (getDw_spec hi.pure).2
  | getEdgeList => exact hi.sim (getEdgeList_spec hi.pure).2
  | computeLaplacian lt => exact computeLaplacian_inv hi lt
  | estimateLmax m => exact estimateLmax_inv hi m
  | getLmax => exact getLmax_inv hi
  | computeFourierBasis k => exact computeFourierBasis_inv hS hi k
  | getBasis => exact getBasis_inv hS hi
  | getCoherence => exact getCoherence_inv hS hi
  | computeDiff => exact (computeDiff_spec hi).1
  | getDiff => exact (getDiff_spec hi).1
  | setW M => exact hi

theorem ofGraph_inv (g : Graph n ℝ) (hg : g.Built) : Inv S (ofGraph g) ∧ (ofGraph g).base = g ∧
    (ofGraph g).lapType = g.lapType ∧ (ofGraph g).lmax = none ∧ (ofGraph g).lmaxMethod = none ∧
    (ofGraph g).basis = none := by
  -- the constructor's call on an object whose `L` is not set yet: use the same object with the right `L`
  obtain ⟨L, hL⟩ : ∃ L, laplacian g.W g.lapType = .ok L := by
    rcases hg.lapType_known with h | h <;> rw [h] <;> exact ⟨_, rfl⟩
  let s0 : GState n :=
    { base := g, directed := some (PyGSP.isDirected g.W), connected := none, adj := none, d := none, dw := none,
      lapType := g.lapType, L := L, lmax := none, lmaxMethod := none, basis := none, coherence := none, D := none,
      calls := 0 }
  have hi : Inv S s0 := by
    refine ⟨hg, ⟨?_, ?_, ?_, ?_, ?_⟩, ⟨g.lapType, hg.lapType_known, hL, fun _ => rfl⟩, ?_, ?_, ?_, ?_⟩
    · intro b hb; simpa [s0] using hb.symm
    all_goals (intro b hb; simp [s0] at hb)
  have heq : ofGraph g = (s0.computeLaplacian g.lapType).2 := by
    unfold ofGraph
    rcases hg.lapType_known with h | h <;> rw [h] <;>
      simp [computeLaplacian, isDirected, getDw, s0, h]
  rw [heq]
  refine ⟨computeLaplacian_inv hi _, ?_⟩
  rcases hg.lapType_known with h | h <;> rw [h] <;> simp [computeLaplacian, isDirected, getDw, s0, h]

theorem runAll_inv {S : Solvers n} (hS : Sound S) (ops : List (Op n)) {s : GState n} (hi : Inv S s) :
    Inv S (runAll S ops s) := by
  induction ops generalizing s with
  | nil => exact hi
  | cons op ops ih => exact ih (run_inv hS hi op)

end GState

end PyGSP
