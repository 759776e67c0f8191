import Verif.Lemmas.Pyramid
import Verif.Props.ChebInterp

/-! # C64: pyramid analysis and synthesis -/

namespace PyGSP

open Matrix Spec GState Reduction Learning

variable {n k : ℕ}

namespace Reduction

theorem kron_ok_n {L : Matrix (Fin n) (Fin n) ℝ} {ind : Fin k → Fin n} {K} (h : kronMatrix L ind = .ok K) : 2 ≤ n := by
  unfold kronMatrix at h
  split at h
  · simp at h
  · rename_i hc
    push Not at hc
    obtain ⟨hk, v, hv⟩ := hc
    have hne : ind ⟨0, by omega⟩ ≠ v := fun e => hv (e ▸ kept_ind ind _)
    have h1 := (ind ⟨0, by omega⟩).2
    have h2 := v.2
    have : (ind ⟨0, by omega⟩).1 ≠ v.1 := fun e => hne (Fin.ext e)
    omega

theorem analysisLoop_cons {method : FMethod} {order : Option ℕ} {g : Level} {gs gs' : List Level} {hs : List Kernel} {f : Arr} {cas pes}
    (h : analysisLoop method order (g :: gs) hs f = (.ok (cas, pes), gs')) :
    ∃ h ht low s1 ca pred s2 err cas' pes' gs1, hs = h :: ht ∧
      analysis g.S (Bank.ofArg (.one h)) f method (order.getD 30) g.st = (.ok low, s1) ∧
      takeRows low (fun a => (g.idx a).1) = .ok ca ∧
      interpolate g.S true ca g.idx (order.getD 100) (1 / 200) method s1 = (.ok pred, s2) ∧
      broadcast (· - ·) f pred = .ok err ∧ analysisLoop method order gs ht ca = (.ok (cas', pes'), gs1) ∧
      cas = f :: cas' ∧ pes = err :: pes' ∧ gs' = { g with st := s2 } :: gs1 := by
  cases hs with
  | nil => simp [analysisLoop] at h
  | cons h0 ht =>
    rcases h1 : analysis g.S (Bank.ofArg (.one h0)) f method (order.getD 30) g.st with ⟨_ | low, s1⟩
    · simp [analysisLoop, h1] at h
    · cases h2 : takeRows low (fun a => (g.idx a).1) with
      | error e => simp [analysisLoop, h1, h2] at h
      | ok ca =>
        rcases h3 : interpolate g.S true ca g.idx (order.getD 100) (1 / 200) method s1 with ⟨_ | pred, s2⟩
        · simp only [analysisLoop, h1, h2, h3] at h; simp at h
        · cases h4 : broadcast (· - ·) f pred with
          | error e => simp only [analysisLoop, h1, h2, h3, h4] at h; simp at h
          | ok err =>
            rcases h5 : analysisLoop method order gs ht ca with ⟨_ | ⟨cas', pes'⟩, gs1⟩
            · simp only [analysisLoop, h1, h2, h3, h4, h5] at h; simp at h
            · simp only [analysisLoop, h1, h2, h3, h4, h5, Prod.mk.injEq, Except.ok.injEq] at h
              exact ⟨h0, ht, low, s1, ca, pred, s2, err, cas', pes', gs1, rfl, h1, h2, h3, h4, h5, h.1.1.symm, h.1.2.symm, h.2.symm⟩

theorem synthesis_cons {method : FMethod} {o : ℕ} {g : Level} {gs : List Level} {cap ca err pred r : Arr} {cas pes}
    (h1 : synthesisLoop method o cap gs pes = (.ok (ca :: cas), gs))
    (h2 : interpolate g.S true ca g.idx o (1 / 200) method g.st = (.ok pred, g.st))
    (h3 : broadcast (· + ·) pred err = .ok r) :
    synthesisLoop method o cap (g :: gs) (err :: pes) = (.ok (r :: ca :: cas), g :: gs) := by
  simp only [synthesisLoop, List.tail_cons, h1, h2, h3]

/-- the coarse approximation of a level is a column -/
theorem level_col {m N : ℕ} {g : Level} {x : Fin N → Fin m → ℝ} {h : Kernel} {method : FMethod} {o1 o2 : ℕ} {low ca pred : Arr} {s1 s2}
    (h1 : analysis g.S (Bank.ofArg (.one h)) (Arr.of2 x) method o1 g.st = (.ok low, s1))
    (h2 : takeRows low (fun a => (g.idx a).1) = .ok ca)
    (h3 : interpolate g.S true ca g.idx o2 (1 / 200) method s1 = (.ok pred, s2)) :
    N = g.n ∧ IsCol g.k ca ∧ IsCol g.n pred := by
  have hn : g.n ≠ 1 := by
    obtain ⟨K, a, hK, -⟩ := interpolate_inv h3
    have := kron_ok_n hK
    omega
  have hN : N = g.n := by
    obtain ⟨sig, M, hp, -⟩ := analysis_inv h1
    by_contra hc
    rw [parse_wrong _ (show (Arr.of2 x).shape = N :: [m] from rfl) hc] at hp
    cases hp
  subst hN
  obtain ⟨r0, hr0⟩ := (analysis_2d h1 hn).2
  have hca := takeRows_col hr0 h2
  exact ⟨rfl, hca, (interpolate_col hca h3).1⟩

theorem loop_reconstruct {method : FMethod} {order : Option ℕ} {o : ℕ} (ho : method = .exact ∨ order.getD 100 = o) :
    ∀ (gs gs' : List Level) (hs : List Kernel) {N m : ℕ} (x : Fin N → Fin m → ℝ) {cas pes},
      analysisLoop method order gs hs (Arr.of2 x) = (.ok (cas, pes), gs') →
      ∃ t cap, cas = Arr.of2 x :: t ∧ cas.getLast? = some cap ∧ cas.length = gs.length + 1 ∧ pes.length = gs.length ∧
        synthesisLoop method o cap gs' pes = (.ok cas, gs')
  | [], gs', hs, N, m, x, cas, pes, h => by
    simp only [analysisLoop, Prod.mk.injEq, Except.ok.injEq] at h
    obtain ⟨⟨rfl, rfl⟩, rfl⟩ := h
    exact ⟨[], _, rfl, rfl, rfl, rfl, rfl⟩
  | g :: gs, gs', hs, N, m, x, cas, pes, h => by
    obtain ⟨h0, ht, low, s1, ca, pred, s2, err, cas', pes', gs1, rfl, h1, h2, h3, h4, h5, rfl, rfl, rfl⟩ := analysisLoop_cons h
    obtain ⟨hN, ⟨c, rfl⟩, ⟨p, rfl⟩⟩ := level_col h1 h2 h3
    subst hN
    obtain ⟨t, cap, rfl, hl, hlen, hlen', hsyn⟩ := loop_reconstruct ho gs gs1 ht _ h5
    refine ⟨_, cap, rfl, ?_, by rw [List.length_cons, hlen, List.length_cons], by simp [hlen'], ?_⟩
    · rw [List.getLast?_cons_cons]; exact hl
    · rw [broadcast_right] at h4
      simp only [Except.ok.injEq] at h4
      subst h4
      refine synthesis_cons (g := { g with st := s2 }) hsyn (interpolate_again ho h3) ?_
      rw [broadcast_left]
      refine congrArg Except.ok (congrArg Arr.of2 ?_)
      funext v j
      ring

theorem pyramid_loop {method : FMethod} {order : Option ℕ} {n0 : ℕ} {gs gs' : List Level} {hs : List Kernel} {f : Arr} {r}
    (h : pyramidAnalysis method order n0 gs hs f = (.ok r, gs')) : f.shape.head? = some n0 ∧
      ((∃ k, hs = [k] ∧ analysisLoop method order gs (List.replicate gs.length k) f = (.ok r, gs')) ∨
      analysisLoop method order gs hs f = (.ok r, gs')) := by
  unfold pyramidAnalysis at h
  split at h
  · simp at h
  · rename_i hh
    refine ⟨not_not.1 hh, ?_⟩
    split at h
    · exact .inl ⟨_, rfl, h⟩
    · split at h
      · simp at h
      · exact .inr h

end Reduction

/-- **Perfect reconstruction**: whenever `pyramid_analysis` of a 2-D array succeeds, `pyramid_synthesis` from the coarsest
approximation and the prediction errors returns all the approximations, the first one being the signal, provided the
interpolations are the same (exact filtering, or the order of the synthesis is the one the analysis used). -/
theorem C64_reconstruction {method : FMethod} {order : Option ℕ} {o : ℕ} (ho : method = .exact ∨ order.getD 100 = o)
    {gs gs' : List Level} {hs : List Kernel} {n0 m : ℕ} (x : Fin n0 → Fin m → ℝ) {cas pes}
    (h : pyramidAnalysis method order n0 gs hs (Arr.of2 x) = (.ok (cas, pes), gs')) :
    cas.length = gs.length + 1 ∧ pes.length = gs.length ∧ cas.head? = some (Arr.of2 x) ∧
      ∃ cap, cas.getLast? = some cap ∧ synthesisLoop method o cap gs' pes = (.ok cas, gs') := by
  obtain ⟨-, ⟨k, -, h'⟩ | h'⟩ := pyramid_loop h <;>
  · obtain ⟨t, cap, rfl, hl, h1, h2, h3⟩ := loop_reconstruct ho _ _ _ _ h'
    exact ⟨h1, h2, rfl, cap, hl, h3⟩

/-- Violation: a 1-D signal `x` is not reconstructed; the result is an `(N, N)` array whose rows are all equal to `x`. -/
theorem C64_1d_violated {method : FMethod} {order : Option ℕ} {o : ℕ} (ho : method = .exact ∨ order.getD 100 = o)
    {g : Level} {gs gs' : List Level} {hs : List Kernel} {n0 : ℕ} (x : Fin n0 → ℝ) {cas pes}
    (h : pyramidAnalysis method order n0 (g :: gs) hs (Arr.of1 x) = (.ok (cas, pes), gs')) :
    ∃ cap t, cas.getLast? = some cap ∧
      synthesisLoop method o cap gs' pes = (.ok (Arr.of2 (fun (_ : Fin n0) w => x w) :: t), gs') := by
  have key : ∀ hs, analysisLoop method order (g :: gs) hs (Arr.of1 x) = (.ok (cas, pes), gs') →
      ∃ cap t, cas.getLast? = some cap ∧
        synthesisLoop method o cap gs' pes = (.ok (Arr.of2 (fun (_ : Fin n0) w => x w) :: t), gs') := by
    intro hs h
    obtain ⟨h0, ht, low, s1, ca, pred, s2, err, cas', pes', gs1, rfl, h1, h2, h3, h4, h5, rfl, rfl, rfl⟩ := analysisLoop_cons h
    have hn : g.n ≠ 1 := by
      obtain ⟨K, a, hK, -⟩ := interpolate_inv h3
      have := kron_ok_n hK
      omega
    have hN : n0 = g.n := by
      obtain ⟨sig, M, hp, -⟩ := analysis_inv h1
      by_contra hc
      rw [parse_wrong _ (show (Arr.of1 x).shape = n0 :: [] from rfl) hc] at hp
      cases hp
    subst hN
    have hlow : IsCol g.n low := by
      obtain ⟨sig, M, -, hM, -⟩ := analysis_inv h1
      rw [analysis_of1 hn hM] at h1
      simp only [Prod.mk.injEq, Except.ok.injEq] at h1
      exact ⟨_, h1.1.symm⟩
    obtain ⟨c, rfl⟩ := takeRows_col hlow h2
    obtain ⟨⟨p, rfl⟩, -⟩ := interpolate_col ⟨c, rfl⟩ h3
    obtain ⟨t, cap, rfl, hl, -, -, hsyn⟩ := loop_reconstruct ho gs gs1 ht _ h5
    rw [broadcast_pairs _ hn] at h4
    simp only [Except.ok.injEq] at h4
    subst h4
    refine ⟨cap, _, by rw [List.getLast?_cons_cons]; exact hl,
      synthesis_cons (g := { g with st := s2 }) hsyn (interpolate_again ho h3) ?_⟩
    rw [broadcast_left]
    refine congrArg Except.ok (congrArg Arr.of2 ?_)
    funext v j
    ring
  obtain ⟨-, ⟨k, -, h'⟩ | h'⟩ := pyramid_loop h
  · exact key _ h'
  · exact key _ h'

/-- Violation: of several signals only the first one is decomposed; the coarse approximations are those of the first signal. -/
theorem C64_many_violated {method : FMethod} {order : Option ℕ} {gs gs1 gs2 : List Level} {hs : List Kernel} {n0 m : ℕ}
    (x : Fin n0 → Fin (m + 2) → ℝ) {cas pes cas' pes'}
    (h : pyramidAnalysis method order n0 gs hs (Arr.of2 x) = (.ok (cas, pes), gs1))
    (h' : pyramidAnalysis method order n0 gs hs (Arr.of2 fun v (_ : Fin 1) => x v 0) = (.ok (cas', pes'), gs2)) :
    cas.tail = cas'.tail := by
  have key : ∀ hs, analysisLoop method order gs hs (Arr.of2 x) = (.ok (cas, pes), gs1) →
      analysisLoop method order gs hs (Arr.of2 fun v (_ : Fin 1) => x v 0) = (.ok (cas', pes'), gs2) → cas.tail = cas'.tail := by
    intro hs h h'
    cases gs with
    | nil =>
      simp only [analysisLoop, Prod.mk.injEq, Except.ok.injEq] at h h'
      rw [← h.1.1, ← h'.1.1]; rfl
    | cons g gs =>
      obtain ⟨h0, ht, low, s1, ca, pred, s2, err, cas1, pes1, gs3, rfl, h1, h2, h3, h4, h5, rfl, rfl, rfl⟩ := analysisLoop_cons h
      obtain ⟨h0', ht', low', s1', ca', pred', s2', err', cas1', pes1', gs3', e, h1', h2', h3', h4', h5', rfl, rfl, rfl⟩ :=
        analysisLoop_cons h'
      obtain ⟨rfl, rfl⟩ := List.cons.inj e
      obtain ⟨hN, -, -⟩ := level_col h1 h2 h3
      subst hN
      have hn : g.n ≠ 1 := by
        obtain ⟨K, a, hK, -⟩ := interpolate_inv h3
        have := kron_ok_n hK
        omega
      obtain ⟨sig, M, -, hM, -⟩ := analysis_inv h1
      obtain ⟨M, hM⟩ : ∃ M : Fin 1 → Matrix (Fin g.n) (Fin g.n) ℝ,
          (Bank.ofArg (.one h0)).ops g.S method (order.getD 30) g.st = (.ok M, s1) := ⟨M, hM⟩
      have e1 := analysis_many hn hM (by omega) x
      have e2 := analysis_col hn hM (fun v (_ : Fin 1) => x v 0)
      rw [h1] at e1
      rw [h1'] at e2
      simp only [Prod.mk.injEq, Except.ok.injEq] at e1 e2
      obtain ⟨rfl, -⟩ := e1
      obtain ⟨rfl, -⟩ := e2
      have hca : ca = ca' := by
        have hr : ∀ a, (g.idx a).1 < g.n * (m + 2) := fun a => by have := (g.idx a).2; nlinarith
        have r1 : takeRows (stacked fun v j => (M 0 *ᵥ fun w => x w j) v) (fun a => (g.idx a).1) = .ok ⟨[g.k, 1], fun
            | [i, j] => if h : i < g.k then (stacked fun v j => (M 0 *ᵥ fun w => x w j) v).val [(g.idx ⟨i, h⟩).1, j] else 0
            | _ => 0⟩ := if_pos hr
        have r2 : takeRows (Arr.of2 fun v (_ : Fin 1) => (M 0 *ᵥ fun w => x w 0) v) (fun a => (g.idx a).1) = .ok ⟨[g.k, 1], fun
            | [i, j] => if h : i < g.k then (Arr.of2 fun v (_ : Fin 1) => (M 0 *ᵥ fun w => x w 0) v).val [(g.idx ⟨i, h⟩).1, j] else 0
            | _ => 0⟩ := if_pos fun a => (g.idx a).2
        rw [r1] at h2
        rw [r2] at h2'
        simp only [Except.ok.injEq] at h2 h2'
        rw [← h2, ← h2']
        congr 1
        funext idx
        match idx with
        | [] => rfl
        | [i] => rfl
        | [i, j] =>
          by_cases hi : i < g.k
          · simp only [dif_pos hi, stacked, Arr.of2]
            have hv := (g.idx ⟨i, hi⟩).2
            by_cases hj : j < 1
            · rw [dif_pos ⟨hr _, hj⟩, dif_pos ⟨hv, hj⟩]
              simp only [Nat.mod_eq_of_lt hv, Nat.div_eq_of_lt hv]
              rfl
            · rw [dif_neg (by tauto), dif_neg (by tauto)]
          · simp only [dif_neg hi]
        | i :: j :: l :: t => rfl
      subst hca
      rw [h5] at h5'
      simp only [Prod.mk.injEq, Except.ok.injEq] at h5'
      exact h5'.1.1
  obtain ⟨-, ⟨k, e1, g1⟩ | g1⟩ := pyramid_loop h
  · obtain ⟨-, ⟨k', e2, g2⟩ | g2⟩ := pyramid_loop h'
    · rw [e1] at e2
      cases e2
      exact key _ g1 g2
    · subst e1
      unfold pyramidAnalysis at h'
      split at h'
      · simp at h'
      · exact key _ g1 h'
  · obtain ⟨-, ⟨k', e2, g2⟩ | g2⟩ := pyramid_loop h'
    · subst e2
      unfold pyramidAnalysis at h
      split at h
      · simp at h
      · exact key _ h g2
    · exact key _ g1 g2

end PyGSP
