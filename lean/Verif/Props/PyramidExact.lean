import Verif.Props.Pyramid

/-! # C64: the pyramid with exact filtering always works -/

namespace PyGSP

open Matrix Spec GState Reduction Learning

variable {n k : ℕ}

namespace Reduction

/-- A level of a pyramid: a graph with non-negative weights after any history, a known Laplacian, a complete Fourier basis
(or none yet), and a list of distinct vertices, some but not all. -/
structure GoodLevel (g : Level) : Prop where
  sound : Sound g.S
  reach : ∃ (gr : Graph g.n ℝ) (hist : List (Op g.n)), gr.Built ∧ NonnegW gr.W.dense ∧ g.st = runAll g.S hist (GState.ofGraph gr)
  size : 2 ≤ g.n
  known : Known g.st.lapType
  complete : ∀ b, g.st.basis = some b → b.k = g.n
  inj : Function.Injective g.idx
  pos : 0 < g.k
  elim : ∃ v, ∀ a, g.idx a ≠ v

/-- The same level after more operations that lead back to the same Laplacian. -/
def Later (g g' : Level) : Prop :=
  ∃ hist : List (Op g.n), g' = { g with st := runAll g.S hist g.st } ∧ g'.st.lapType = g.st.lapType ∧
    ∀ b, g'.st.basis = some b → b.k = g'.n

/-- The vertices kept at a level are those of the next graph. -/
def Chained : ℕ → List Level → Prop
  | _, [] => True
  | n0, g :: gs => n0 = g.n ∧ Chained g.k gs

/-- A kernel that is defined on non-negative numbers. -/
def Defined (h : Kernel) : Prop := ∀ (m : ℕ) (e : Fin m → ℝ), (∀ j, 0 ≤ e j) → ∃ y, h m e = .ok y

theorem GoodLevel.later {g g' : Level} (h : GoodLevel g) (hl : Later g g') : GoodLevel g' := by
  obtain ⟨hist, rfl, h1, h2⟩ := hl
  obtain ⟨gr, hist0, hb, hW, hst⟩ := h.reach
  exact ⟨h.sound, ⟨gr, hist0 ++ hist, hb, hW, by simp only [hst]; unfold runAll; rw [List.foldl_append]⟩, h.size,
    by rw [h1]; exact h.known, h2, h.inj, h.pos, h.elim⟩

/-- the Laplacian only depends on the weights and the type -/
theorem GoodLevel.later_L {g : Level} (h : GoodLevel g) {s : GState g.n} (hl : Later g { g with st := s }) : s.L = g.st.L := by
  obtain ⟨hist, e, h1, -⟩ := hl
  obtain ⟨gr, hist0, hb, hW, hst⟩ := h.reach
  have e' : s = runAll g.S hist g.st := by
    injection e
  obtain ⟨i1, w1, -⟩ := reach_inv h.sound hb hist0
  obtain ⟨i2, w2, -⟩ := reach_inv h.sound hb (hist0 ++ hist)
  have es : runAll g.S (hist0 ++ hist) (GState.ofGraph gr) = s := by
    rw [e', hst]; unfold runAll; rw [List.foldl_append]
  rw [← hst] at i1 w1
  rw [es] at i2 w2
  obtain ⟨lt1, -, hL1, hlt1⟩ := i1.lap
  obtain ⟨lt2, -, hL2, hlt2⟩ := i2.lap
  rw [hlt1 h.known, w1] at hL1
  simp only at h1
  rw [hlt2 (by rw [h1]; exact h.known), w2, h1, hL1] at hL2
  exact (Except.ok.inj hL2).symm

theorem GoodLevel.later_basis {g : Level} (h : GoodLevel g) : Later g { g with st := (g.st.getBasis g.S).2 } := by
  obtain ⟨gr, hist, hb, hW, hst⟩ := h.reach
  obtain ⟨b, h1, h2, h3⟩ := GState.complete_basis h.sound hb hist hst hW (by have := h.size; omega) h.known h.complete
  refine ⟨[.getBasis], rfl, ?_, fun b' hb' => ?_⟩
  · obtain ⟨i1, w1, l1⟩ := reach_inv h.sound hb hist
    obtain ⟨i2, w2, l2⟩ := reach_inv h.sound hb (hist ++ [.getBasis])
    have es : runAll g.S (hist ++ [.getBasis]) (GState.ofGraph gr) = (g.st.getBasis g.S).2 := by
      rw [hst]; unfold runAll; rw [List.foldl_append]; rfl
    rw [es] at l2
    rw [← hst] at l1
    simp only
    rw [l2, l1]
    simp [lastType, requestedType]
  · have := (getBasis_stored (getBasis_split h1)).1
    simp only at hb'
    rw [this] at hb'
    cases hb'
    exact h2

/-- exact filtering at a level -/
theorem GoodLevel.filter {g : Level} (h : GoodLevel g) {ker : Kernel} (hd : Defined ker) (x : Fin g.n → ℝ) (o : ℕ) :
    ∃ y : Fin g.n → ℝ, analysis g.S (Bank.ofArg (.one ker)) (Arr.of2 fun v (_ : Fin 1) => x v) .exact o g.st =
      (.ok (Arr.of2 fun v (_ : Fin 1) => y v), (g.st.getBasis g.S).2) := by
  obtain ⟨gr, hist, hb, hW, hst⟩ := h.reach
  obtain ⟨b, h1, h2, h3⟩ := GState.complete_basis h.sound hb hist hst hW (by have := h.size; omega) h.known h.complete
  obtain ⟨hi, hWs, -⟩ := reach_inv h.sound hb hist
  rw [← hst] at hi hWs
  have hpsd : PSD g.st.L := hi.psd (by rw [hWs]; exact hW)
  obtain ⟨y, hy⟩ := hd _ b.e fun j => eig_nonneg hpsd (h3.isEigenvalue j)
  exact ⟨_, analysis_col (by have := h.size; omega) (kernel_ops_exact ker o (getBasis_split h1) h2 hy) _⟩

/-- exact interpolation at a level -/
theorem GoodLevel.interp {g : Level} (h : GoodLevel g) (x : Fin g.k → ℝ) :
    ∃ v : Fin g.n → ℝ, IsInterpolation g.st.L (1 / 200) g.idx x v ∧
      ∀ o, (interpolate g.S true (Arr.of2 fun v (_ : Fin 1) => x v) g.idx o (1 / 200) .exact g.st).1 =
        .ok (Arr.of2 fun u (_ : Fin 1) => v u) := by
  obtain ⟨gr, hist, hb, hW, hst⟩ := h.reach
  obtain ⟨v, h1, -, h2⟩ := C63_interpolate h.sound hb hist hst hW h.size h.known h.complete h.inj h.pos h.elim
    (eps := 1 / 200) (by norm_num) 0 x
  refine ⟨v, h1, fun o => ?_⟩
  obtain ⟨v', h1', -, h2'⟩ := C63_interpolate h.sound hb hist hst hW h.size h.known h.complete h.inj h.pos h.elim
    (eps := 1 / 200) (by norm_num) o x
  obtain ⟨hi, hWs, -⟩ := reach_inv h.sound hb hist
  rw [← hst] at hi hWs
  rw [h2', C63_unique (Inv.L_transpose hi) (hi.psd (by rw [hWs]; exact hW)) (by norm_num) h1' h1]

theorem takeRows_ok (y : Fin n → ℝ) (ind : Fin k → Fin n) :
    takeRows (Arr.of2 fun v (_ : Fin 1) => y v) (fun a => (ind a).1) = .ok (Arr.of2 fun a (_ : Fin 1) => y (ind a)) := by
  refine (if_pos (show ∀ i, (ind i).1 < n from fun i => (ind i).2)).trans (congrArg Except.ok ?_)
  ext1
  · rfl
  · funext idx
    match idx with
    | [] => rfl
    | [i] => rfl
    | [i, j] =>
      simp only [Arr.of2]
      by_cases hi : i < k
      · rw [dif_pos hi]
        by_cases hj : j < 1
        · rw [dif_pos ⟨(ind _).2, hj⟩, dif_pos ⟨hi, hj⟩]
        · rw [dif_neg (by tauto), dif_neg (by tauto)]
      · rw [dif_neg hi, dif_neg (by tauto)]
    | i :: j :: l :: t => rfl

theorem loop_exact (order : Option ℕ) : ∀ (gs : List Level) (hs : List Kernel) (n0 : ℕ) (x : Fin n0 → ℝ),
    (∀ g ∈ gs, GoodLevel g) → Chained n0 gs → hs.length = gs.length → (∀ h ∈ hs, Defined h) →
    ∃ t pes gs', analysisLoop .exact order gs hs (Arr.of2 fun v (_ : Fin 1) => x v) =
        (.ok ((Arr.of2 fun v (_ : Fin 1) => x v) :: t, pes), gs') ∧ List.Forall₂ Later gs gs' ∧
      ∃ cap, ((Arr.of2 fun v (_ : Fin 1) => x v) :: t).getLast? = some cap ∧
        ∀ gs'', List.Forall₂ Later gs gs'' → ∀ o,
          (synthesisLoop .exact o cap gs'' pes).1 = .ok ((Arr.of2 fun v (_ : Fin 1) => x v) :: t)
  | [], hs, n0, x, _, _, _, _ =>
    ⟨[], [], [], rfl, .nil, _, rfl, fun gs'' h o => by cases h; rfl⟩
  | g :: gs, [], n0, x, _, _, hlen, _ => by simp at hlen
  | g :: gs, h0 :: ht, n0, x, hgood, hch, hlen, hdef => by
    obtain ⟨rfl, hch⟩ := hch
    have hg : GoodLevel g := hgood g (by simp)
    have hlat := hg.later_basis
    have hg1 := hg.later hlat
    obtain ⟨y, hy⟩ := hg.filter (hdef h0 (by simp)) x (order.getD 30)
    obtain ⟨v, hv, hvi⟩ := hg1.interp fun a => y (g.idx a)
    simp only at hv hvi
    have hL1 : (g.st.getBasis g.S).2.L = g.st.L := hg.later_L hlat
    rw [hL1] at hv
    obtain ⟨t, pes, gs', e1, e2, cap, e3, e4⟩ := loop_exact order gs ht g.k (fun a => y (g.idx a))
      (fun g' h => hgood g' (by simp [h])) hch (by simpa using hlen) fun h h' => hdef h (by simp [h'])
    -- the state after the interpolation
    have hst : interpolate g.S true (Arr.of2 fun a (_ : Fin 1) => y (g.idx a)) g.idx (order.getD 100) (1 / 200) .exact
        (g.st.getBasis g.S).2 = (.ok (Arr.of2 fun u (_ : Fin 1) => v u), (g.st.getBasis g.S).2) := by
      have h5 := hvi (order.getD 100)
      rcases hr : interpolate g.S true (Arr.of2 fun a (_ : Fin 1) => y (g.idx a)) g.idx (order.getD 100) (1 / 200) .exact
        (g.st.getBasis g.S).2 with ⟨r, s2⟩
      rw [hr] at h5
      simp only at h5
      subst h5
      obtain ⟨K, a, -, -, h7⟩ := interpolate_inv hr
      obtain ⟨sig, M, -, h8, -⟩ := analysis_inv h7
      obtain ⟨b, yy, h9, -⟩ := Bank.ops_exact h8
      obtain ⟨sig', M', -, h10, -⟩ := analysis_inv hy
      obtain ⟨b', yy', h11, -⟩ := Bank.ops_exact h10
      have h12 := (getBasis_stored h11).2
      rw [h12] at h9
      simp only [Prod.mk.injEq] at h9
      rw [← h9.2]
    refine ⟨(Arr.of2 fun a (_ : Fin 1) => y (g.idx a)) :: t, (Arr.of2 fun u (_ : Fin 1) => x u - v u) :: pes,
      { g with st := (g.st.getBasis g.S).2 } :: gs', ?_, .cons hlat e2, cap, by rw [List.getLast?_cons_cons]; exact e3, ?_⟩
    · simp only [analysisLoop, hy, takeRows_ok, hst, e1]
      rw [broadcast_right]
    · intro gs'' hl o
      cases hl with
      | @cons _ g' _ gs2 hgl hl =>
        have e5 := e4 gs2 hl o
        rcases hsy : synthesisLoop .exact o cap gs2 pes with ⟨r, gs3⟩
        rw [hsy] at e5
        simp only at e5
        subst e5
        have hg' := hg.later hgl
        obtain ⟨hist, rfl, hlt, hcp⟩ := hgl
        have hL' := hg.later_L (s := runAll g.S hist g.st) ⟨hist, rfl, hlt, hcp⟩
        obtain ⟨v', hv', hvi'⟩ := hg'.interp fun a => y (g.idx a)
        simp only at hv' hvi'
        rw [hL'] at hv'
        have hvv : v' = v := by
          obtain ⟨gr, hist0, hb, hW, hst0⟩ := hg.reach
          obtain ⟨hi, hWs, -⟩ := reach_inv hg.sound hb hist0
          rw [← hst0] at hi hWs
          exact C63_unique (Inv.L_transpose hi) (hi.psd (by rw [hWs]; exact hW)) (by norm_num) hv' hv
        subst hvv
        have h6 := hvi' o
        rcases hr : interpolate g.S true (Arr.of2 fun a (_ : Fin 1) => y (g.idx a)) g.idx o (1 / 200) .exact
          (runAll g.S hist g.st) with ⟨r, s2⟩
        rw [hr] at h6
        simp only at h6
        subst h6
        simp only [synthesisLoop, List.tail_cons, hsy, hr]
        rw [broadcast_left]
        simp only
        refine congrArg (fun z => Except.ok (z :: _)) (congrArg Arr.of2 ?_)
        funext u j
        ring

end Reduction

/-- **With exact filtering the pyramid always works**, and any operations on the graphs in between that lead back to the same
Laplacian (computing bases, bounds, edges, changing the Laplacian and back, ...) do not matter. -/
theorem C64_exact (order : Option ℕ) {gs : List Level} {hs : List Kernel} {n0 : ℕ} (x : Fin n0 → ℝ)
    (hgood : ∀ g ∈ gs, GoodLevel g) (hch : Chained n0 gs) (hlen : hs.length = gs.length ∨ hs.length = 1)
    (hdef : ∀ h ∈ hs, Defined h) :
    ∃ cas pes gs' cap, pyramidAnalysis .exact order n0 gs hs (Arr.of2 fun v (_ : Fin 1) => x v) = (.ok (cas, pes), gs') ∧
      List.Forall₂ Later gs gs' ∧ cas.head? = some (Arr.of2 fun v (_ : Fin 1) => x v) ∧ cas.getLast? = some cap ∧
      ∀ gs'', List.Forall₂ Later gs gs'' → ∀ o, (synthesisLoop .exact o cap gs'' pes).1 = .ok cas := by
  have hshape : ¬ ((Arr.of2 fun v (_ : Fin 1) => x v).shape.head? ≠ some n0) := by simp [Arr.of2]
  match hs, hlen, hdef with
  | [], hlen, hdef =>
    have hgs : gs = [] := by
      rcases hlen with h | h
      · exact List.length_eq_zero_iff.1 h.symm
      · simp at h
    subst hgs
    refine ⟨[Arr.of2 fun v (_ : Fin 1) => x v], [], [], Arr.of2 fun v (_ : Fin 1) => x v, ?_, .nil, rfl, rfl, fun gs'' h o => by cases h; rfl⟩
    unfold pyramidAnalysis
    rw [if_neg hshape]
    rfl
  | [h], hlen, hdef =>
    obtain ⟨t, pes, gs', e1, e2, cap, e3, e4⟩ := loop_exact order gs (List.replicate gs.length h) n0 x hgood hch (by simp)
      fun h' hm => by rw [(List.mem_replicate.1 hm).2]; exact hdef h (by simp)
    refine ⟨_, pes, gs', cap, ?_, e2, rfl, e3, e4⟩
    unfold pyramidAnalysis
    rw [if_neg hshape]
    exact e1
  | h :: h' :: hs, hlen, hdef =>
    have hlen' : (h :: h' :: hs).length = gs.length := by
      rcases hlen with h | h
      · exact h
      · simp at h
    obtain ⟨t, pes, gs', e1, e2, cap, e3, e4⟩ := loop_exact order gs _ n0 x hgood hch hlen' hdef
    refine ⟨_, pes, gs', cap, ?_, e2, rfl, e3, e4⟩
    unfold pyramidAnalysis
    rw [if_neg hshape]
    simp only
    rw [if_neg (not_not.2 hlen')]
    exact e1

end PyGSP
