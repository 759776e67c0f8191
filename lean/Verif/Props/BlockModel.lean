import Verif.Model.BlockModel
import Verif.Props.Generators
import Verif.Props.Laplacian
import Mathlib.Data.Nat.Count

/-!
# C74: StochasticBlockModel and ErdosRenyi
-/

namespace PyGSP

open Matrix Spec Gen

variable {N k : ℕ}

namespace Gen

/-- the pairs `(row, column)` for which a random number is drawn -/
def Drawn (directed loops : Bool) (r c : ℕ) : Prop := (r ≠ c ∨ loops = true) ∧ (c ≤ r ∨ directed = true)

section
variable (M : Matrix (Fin k) (Fin k) ℝ) (z : Fin N → Fin k) (directed loops : Bool) (u : ℕ → ℝ)

/-- the pair visited at step `t` is drawn -/
def DrawnAt (N : ℕ) (directed loops : Bool) (t : ℕ) : Prop := Drawn directed loops (t % N) (t / N)

noncomputable instance (t : ℕ) : Decidable (DrawnAt N directed loops t) := Classical.dec _

/-- the number of the call that decides the pair -/
noncomputable def callIndex (N : ℕ) (directed loops : Bool) (calls r c : ℕ) : ℕ := calls + Nat.count (DrawnAt N directed loops) (c * N + r)

theorem step_pair {r c : ℕ} (hr : r < N) : (c * N + r) % N = r ∧ (c * N + r) / N = c := by
  constructor
  · rw [Nat.mul_comm, Nat.mul_add_mod, Nat.mod_eq_of_lt hr]
  · rw [Nat.mul_comm, Nat.mul_add_div (by omega), Nat.div_eq_of_lt hr, Nat.add_zero]

open Classical in
theorem sbm_fold (hN : 0 < N) (calls : ℕ) (s : ℕ) (hs : s ≤ N * N) :
    let st := (List.range s).foldl (fun s _ => sbmStep M z directed loops u s) ⟨0, 0, calls, []⟩
    st.row = s % N ∧ st.col = s / N ∧ st.calls = calls + Nat.count (DrawnAt N directed loops) s ∧
      (∀ e ∈ st.acc, e.1 < N ∧ e.2.1 < N) ∧
      ∀ i j : Fin N, weightAt st.acc i.1 j.1 =
        if j.1 * N + i.1 < s ∧ Drawn directed loops i.1 j.1 ∧ u (callIndex N directed loops calls i.1 j.1) < M (z i) (z j) then 1 else 0 := by
  induction s with
  | zero => simp
  | succ s ih =>
    obtain ⟨h1, h2, h3, h4, h5⟩ := ih (by omega)
    rw [List.range_succ, List.foldl_append, List.foldl_cons, List.foldl_nil]
    generalize (List.range s).foldl (fun s _ => sbmStep M z directed loops u s) ⟨0, 0, calls, []⟩ = st at *
    simp only at h1 h2 h3 h4 h5 ⊢
    have hrow : s % N < N := Nat.mod_lt _ hN
    have hcol : s / N < N := (Nat.div_lt_iff_lt_mul hN).2 (by omega)
    have hs' : s / N * N + s % N = s := by rw [Nat.mul_comm]; exact Nat.div_add_mod s N
    -- the counters
    have hnext : (s + 1) % N = (if s % N < N - 1 then s % N + 1 else 0) ∧ (s + 1) / N = (if s % N < N - 1 then s / N else s / N + 1) := by
      split
      · have := step_pair (N := N) (r := s % N + 1) (c := s / N) (by omega)
        rw [← Nat.add_assoc, hs'] at this
        exact this
      · have := step_pair (N := N) (r := 0) (c := s / N + 1) (by omega)
        have e : (s / N + 1) * N + 0 = s + 1 := by rw [Nat.add_mul]; omega
        rw [e] at this
        exact this
    have hpos : ∀ i j : Fin N, j.1 * N + i.1 = s ↔ i.1 = s % N ∧ j.1 = s / N := by
      intro i j
      constructor
      · intro e
        have := step_pair (N := N) (c := j.1) i.2
        rw [e] at this
        exact ⟨this.1.symm, this.2.symm⟩
      · rintro ⟨e1, e2⟩; rw [e1, e2, hs']
    have hcall : ∀ i j : Fin N, i.1 = s % N → j.1 = s / N → callIndex N directed loops calls i.1 j.1 = st.calls := by
      intro i j e1 e2
      unfold callIndex
      rw [(hpos i j).2 ⟨e1, e2⟩, h3]
    have hold : ∀ i j : Fin N, ¬ (i.1 = s % N ∧ j.1 = s / N) → (j.1 * N + i.1 < s + 1 ↔ j.1 * N + i.1 < s) := by
      intro i j hne
      have := mt (hpos i j).1 hne
      omega
    have hupd : ∀ st' : SbmState, (if st.row < N - 1 then { st' with row := st.row + 1 } else { st' with row := 0, col := st.col + 1 } : SbmState).acc = st'.acc ∧
        (if st.row < N - 1 then { st' with row := st.row + 1 } else { st' with row := 0, col := st.col + 1 } : SbmState).calls = st'.calls := by
      intro st'
      split <;> exact ⟨rfl, rfl⟩
    have hdraw : DrawnAt N directed loops s ↔ (st.row ≠ st.col ∨ loops = true) ∧ (st.col ≤ st.row ∨ directed = true) := by
      unfold DrawnAt Drawn
      rw [h1, h2]
    have hsc : (sbmStep M z directed loops u st).row = (s + 1) % N ∧ (sbmStep M z directed loops u st).col = (s + 1) / N := by
      unfold sbmStep
      simp only
      rw [hnext.1, hnext.2, ← h1, ← h2]
      by_cases q : st.row < N - 1
      · rw [if_pos q, if_pos q, if_pos q]
        refine ⟨rfl, ?_⟩
        simp only
        split
        · split
          · split
            · split <;> rfl
            · rfl
          · rfl
        · rfl
      · rw [if_neg q, if_neg q, if_neg q]
        exact ⟨rfl, rfl⟩
    refine ⟨hsc.1, hsc.2, ?_⟩
    have hcount := Nat.count_succ (DrawnAt N directed loops) s
    by_cases hd : DrawnAt N directed loops s
    · rw [if_pos hd] at hcount
      obtain ⟨d1, d2⟩ := hdraw.1 hd
      have hb : st.row < N ∧ st.col < N := by rw [h1, h2]; exact ⟨hrow, hcol⟩
      have hzr : (⟨st.row, hb.1⟩ : Fin N) = ⟨s % N, hrow⟩ := Fin.ext h1
      have hzc : (⟨st.col, hb.2⟩ : Fin N) = ⟨s / N, hcol⟩ := Fin.ext h2
      by_cases hu : u st.calls < M (z ⟨st.row, hb.1⟩) (z ⟨st.col, hb.2⟩)
      · have hacc : (sbmStep M z directed loops u st).acc = st.acc ++ [(st.row, st.col, 1)] ∧ (sbmStep M z directed loops u st).calls = st.calls + 1 := by
          unfold sbmStep
          simp only
          rw [if_pos d1, if_pos d2, dif_pos hb, if_pos hu]
          exact hupd _
        rw [hacc.1, hacc.2, h3, hcount]
        refine ⟨by omega, ?_, fun i j => ?_⟩
        · intro e he
          rcases List.mem_append.1 he with he | he
          · exact h4 e he
          · rw [List.mem_singleton.1 he]; exact hb
        · rw [weightAt_append, h5]
          have hw : weightAt [(st.row, st.col, (1 : ℝ))] i.1 j.1 = if st.row = i.1 ∧ st.col = j.1 then 1 else 0 := by
            simp [weightAt]
          rw [hw]
          by_cases hij : i.1 = s % N ∧ j.1 = s / N
          · have ei : (⟨s % N, hrow⟩ : Fin N) = i := Fin.ext hij.1.symm
            have ej : (⟨s / N, hcol⟩ : Fin N) = j := Fin.ext hij.2.symm
            rw [if_pos (⟨by omega, by omega⟩ : st.row = i.1 ∧ st.col = j.1), if_neg (by have := (hpos i j).2 hij; omega), if_pos, zero_add]
            refine ⟨by have := (hpos i j).2 hij; omega, ?_, ?_⟩
            · have := hd
              unfold DrawnAt at this
              rw [hij.1, hij.2]; exact this
            · rw [hcall i j hij.1 hij.2, ← ei, ← ej, ← hzr, ← hzc]; exact hu
          · rw [if_neg (fun q : st.row = i.1 ∧ st.col = j.1 => hij ⟨by omega, by omega⟩), add_zero]
            exact if_congr (and_congr_left fun _ => (hold i j hij).symm) rfl rfl
      · have hacc : (sbmStep M z directed loops u st).acc = st.acc ∧ (sbmStep M z directed loops u st).calls = st.calls + 1 := by
          unfold sbmStep
          simp only
          rw [if_pos d1, if_pos d2, dif_pos hb, if_neg hu]
          exact hupd _
        rw [hacc.1, hacc.2, h3, hcount]
        refine ⟨by omega, h4, fun i j => ?_⟩
        rw [h5]
        by_cases hij : i.1 = s % N ∧ j.1 = s / N
        · have ei : (⟨s % N, hrow⟩ : Fin N) = i := Fin.ext hij.1.symm
          have ej : (⟨s / N, hcol⟩ : Fin N) = j := Fin.ext hij.2.symm
          rw [if_neg (by have := (hpos i j).2 hij; omega), if_neg]
          rintro ⟨-, -, q⟩
          rw [hcall i j hij.1 hij.2, ← ei, ← ej, ← hzr, ← hzc] at q
          exact hu q
        · exact if_congr (and_congr_left fun _ => (hold i j hij).symm) rfl rfl
    · rw [if_neg hd] at hcount
      have hacc : (sbmStep M z directed loops u st).acc = st.acc ∧ (sbmStep M z directed loops u st).calls = st.calls := by
        unfold sbmStep
        simp only
        by_cases d1 : st.row ≠ st.col ∨ loops = true
        · rw [if_pos d1, if_neg fun d2 => hd (hdraw.2 ⟨d1, d2⟩)]
          exact hupd _
        · rw [if_neg d1]
          exact hupd _
      rw [hacc.1, hacc.2, h3, hcount]
      refine ⟨by omega, h4, fun i j => ?_⟩
      rw [h5]
      by_cases hij : i.1 = s % N ∧ j.1 = s / N
      · rw [if_neg (by have := (hpos i j).2 hij; omega), if_neg]
        rintro ⟨-, q, -⟩
        rw [hij.1, hij.2] at q
        exact hd q
      · exact if_congr (and_congr_left fun _ => (hold i j hij).symm) rfl rfl

open Classical in
/-- the matrix of one pass -/
theorem sbmAttempt_spec (calls : ℕ) :
    ∃ W, (sbmAttempt M z directed loops u calls).1 = .ok W ∧
      (sbmAttempt M z directed loops u calls).2 = calls + Nat.count (DrawnAt N directed loops) (N * N) ∧ ∀ i j, W i j =
        if directed = true then (if Drawn directed loops i.1 j.1 ∧ u (callIndex N directed loops calls i.1 j.1) < M (z i) (z j) then 1 else 0)
        else if j ≤ i then (if Drawn directed loops i.1 j.1 ∧ u (callIndex N directed loops calls i.1 j.1) < M (z i) (z j) then 1 else 0)
        else (if Drawn directed loops j.1 i.1 ∧ u (callIndex N directed loops calls j.1 i.1) < M (z j) (z i) then 1 else 0) := by
  rcases Nat.eq_zero_or_pos N with rfl | hN
  · have h0 : coo 0 [] = .ok (Sp.sumDuplicates ⟨[]⟩) := by
      unfold coo
      rw [dif_pos (by simp)]
      rfl
    unfold sbmAttempt
    simp only [Nat.mul_zero, List.range_zero, List.foldl_nil, h0]
    cases directed
    · rw [if_neg (by simp)]
      have hs : ∀ W : Matrix (Fin 0) (Fin 0) ℝ, symmetrize true W .tril = .ok (symMaximum true (keepTril W)) := by
        intro W
        unfold symmetrize
        rw [dif_pos rfl]
      refine ⟨_, hs _, by simp, fun i => i.elim0⟩
    · rw [if_pos rfl]
      exact ⟨_, rfl, by simp, fun i => i.elim0⟩
  · obtain ⟨-, -, h3, h4, h5⟩ := sbm_fold M z directed loops u hN calls (N * N) le_rfl
    unfold sbmAttempt
    simp only
    generalize (List.range (N * N)).foldl (fun s _ => sbmStep M z directed loops u s) ⟨0, 0, calls, []⟩ = st at *
    obtain ⟨W, w1, w2, w3⟩ := coo_ok h4
    rw [w1]
    simp only
    have hraw : ∀ i j, W.dense i j = if Drawn directed loops i.1 j.1 ∧ u (callIndex N directed loops calls i.1 j.1) < M (z i) (z j) then 1 else 0 := by
      intro i j
      rw [w3, h5]
      refine if_congr ⟨fun h => h.2, fun h => ⟨?_, h⟩⟩ rfl rfl
      have := i.2
      have h2 : (j.1 + 1) * N ≤ N * N := Nat.mul_le_mul_right _ j.2
      rw [Nat.succ_mul] at h2
      omega
    cases directed
    · rw [if_neg (by simp)]
      have hnn : NonnegW W.dense := fun i j => by rw [hraw]; split <;> norm_num
      obtain ⟨-, -, -, h, -⟩ := C53_values true W.dense
      obtain ⟨S, s1, s2⟩ := h hnn
      refine ⟨S, s1, h3, fun i j => ?_⟩
      rw [s2, hraw, hraw]
      exact (if_neg (by simp)).symm
    · rw [if_pos rfl]
      exact ⟨_, rfl, h3, fun i j => by rw [hraw, if_pos rfl]⟩

/-- the matrix of one pass -/
noncomputable def sampleW (calls : ℕ) : Matrix (Fin N) (Fin N) ℝ := Classical.choose (sbmAttempt_spec M z directed loops u calls)

/-- the number of random numbers used by one pass -/
noncomputable def sampleCalls (N : ℕ) (directed loops : Bool) : ℕ := Nat.count (DrawnAt N directed loops) (N * N)

theorem sbmAttempt_eq (calls : ℕ) :
    sbmAttempt M z directed loops u calls = (.ok (sampleW M z directed loops u calls), calls + sampleCalls N directed loops) := by
  obtain ⟨h1, h2, -⟩ := Classical.choose_spec (sbmAttempt_spec M z directed loops u calls)
  exact Prod.ext h1 h2

open Classical in
theorem sampleW_apply (calls : ℕ) (i j : Fin N) : sampleW M z directed loops u calls i j =
    if directed = true then (if Drawn directed loops i.1 j.1 ∧ u (callIndex N directed loops calls i.1 j.1) < M (z i) (z j) then 1 else 0)
    else if j ≤ i then (if Drawn directed loops i.1 j.1 ∧ u (callIndex N directed loops calls i.1 j.1) < M (z i) (z j) then 1 else 0)
    else (if Drawn directed loops j.1 i.1 ∧ u (callIndex N directed loops calls j.1 i.1) < M (z j) (z i) then 1 else 0) :=
  (Classical.choose_spec (sbmAttempt_spec M z directed loops u calls)).2.2 i j

theorem sampleW_shift (calls : ℕ) : sampleW M z directed loops u calls = sampleW M z directed loops (fun c => u (calls + c)) 0 := by
  ext i j
  rw [sampleW_apply, sampleW_apply]
  have hc : ∀ r c : ℕ, callIndex N directed loops calls r c = calls + callIndex N directed loops 0 r c := by
    intro r c
    unfold callIndex
    rw [Nat.zero_add]
  rw [hc, hc]

theorem sbmTry_unconnected (pop : ℕ → Pop N) (t calls : ℕ) :
    sbmTry M z directed loops u false pop (t + 1) calls = .ok (some (sampleW M z directed loops u calls)) := by
  rw [sbmTry, sbmAttempt_eq]
  simp only
  rw [if_neg (by simp)]

open Classical in
theorem sbmTry_connected (hN : 0 < N) (pop : ℕ → Pop N) (t calls : ℕ) :
    sbmTry M z directed loops u true pop (t + 1) calls =
      if StronglyConnected (sampleW M z directed loops u calls) then .ok (some (sampleW M z directed loops u calls))
      else sbmTry M z directed loops u true pop t (calls + sampleCalls N directed loops) := by
  rw [sbmTry, sbmAttempt_eq]
  simp only [if_true]
  obtain ⟨g, g1, g2, g3, g4⟩ := Graph.ofCsr_canonical (Sp.ofDense (sampleW M z directed loops u calls)) (Sp.canonical_ofDense _)
    (lt := .combinatorial) (.inl rfl)
  rw [Sp.dense_ofDense] at g3
  obtain ⟨b, b1, b2⟩ := C05_is_connected_iff g g2 hN (pop calls)
  rw [g3] at b2
  rw [g1]
  simp only
  rw [b1]
  cases b
  · rw [if_neg fun h => by simpa using b2.2 h]
  · rw [if_pos (b2.1 rfl)]

theorem sbmTry_none (hN : 0 < N) (pop : ℕ → Pop N) (t calls : ℕ)
    (h : ∀ a < t, ¬ StronglyConnected (sampleW M z directed loops u (calls + a * sampleCalls N directed loops))) :
    sbmTry M z directed loops u true pop t calls = .ok none := by
  induction t generalizing calls with
  | zero => rfl
  | succ t ih =>
    rw [sbmTry_connected M z directed loops u hN, if_neg (by simpa using h 0 (by omega))]
    refine ih _ fun a ha => ?_
    have := h (a + 1) (by omega)
    rwa [Nat.succ_mul, Nat.add_comm (a * _), ← Nat.add_assoc] at this

theorem sbmTry_first (hN : 0 < N) (pop : ℕ → Pop N) (t a calls : ℕ) (ha : a < t)
    (h : ∀ b < a, ¬ StronglyConnected (sampleW M z directed loops u (calls + b * sampleCalls N directed loops)))
    (hc : StronglyConnected (sampleW M z directed loops u (calls + a * sampleCalls N directed loops))) :
    sbmTry M z directed loops u true pop t calls = .ok (some (sampleW M z directed loops u (calls + a * sampleCalls N directed loops))) := by
  induction a generalizing calls t with
  | zero =>
    obtain ⟨t, rfl⟩ : ∃ m, t = m + 1 := ⟨t - 1, by omega⟩
    simp only [Nat.zero_mul, Nat.add_zero] at hc ⊢
    rw [sbmTry_connected M z directed loops u hN, if_pos hc]
  | succ a ih =>
    obtain ⟨t, rfl⟩ : ∃ m, t = m + 1 := ⟨t - 1, by omega⟩
    have e : ∀ b, calls + (b + 1) * sampleCalls N directed loops = calls + sampleCalls N directed loops + b * sampleCalls N directed loops := by
      intro b; rw [Nat.succ_mul]; omega
    rw [sbmTry_connected M z directed loops u hN, if_neg (by simpa using h 0 (by omega)), e]
    rw [e] at hc
    refine ih t _ (by omega) (fun b hb => ?_) hc
    rw [← e]
    exact h (b + 1) (by omega)

theorem sbmCheck_iff : sbmCheck M = .ok () ↔ ∀ i j, 0 ≤ M i j ∧ M i j ≤ 1 := by
  unfold sbmCheck
  constructor
  · intro h i j
    by_contra hc
    rw [if_pos] at h
    · cases h
    · by_cases h0 : M i j < 0
      · exact .inl ⟨i, j, h0⟩
      · refine .inr ⟨i, j, ?_⟩
        push Not at h0
        by_contra h1
        exact hc ⟨h0, not_lt.1 h1⟩
  · intro h
    rw [if_neg]
    rintro (⟨i, j, h1⟩ | ⟨i, j, h1⟩)
    · exact absurd (h i j).1 (not_le.2 h1)
    · exact absurd (h i j).2 (not_le.2 h1)

theorem sbmCheck_not (h : ¬ ∀ i j, 0 ≤ M i j ∧ M i j ≤ 1) : sbmCheck M = .error .valueError := by
  have := mt (sbmCheck_iff M).1 h
  unfold sbmCheck at *
  split
  · rfl
  · rename_i hn; rw [if_neg hn] at this; exact absurd rfl this

/-- every graph that is returned is one of the samples -/
theorem sbm_ok (hN : 0 < N) {connected : Bool} {pop : ℕ → Pop N} {nTry : Option ℕ} {lt : LapType} {g : Graph N ℝ}
    (h : sbm M z directed loops u connected pop nTry lt = some (.ok g)) :
    (∀ i j, 0 ≤ M i j ∧ M i j ≤ 1) ∧ ∃ a, Graph.ofCsr (Sp.ofDense (sampleW M z directed loops u (a * sampleCalls N directed loops))) lt = .ok g ∧
      (connected = true → StronglyConnected (sampleW M z directed loops u (a * sampleCalls N directed loops))) := by
  classical
  have hM : ∀ i j, 0 ≤ M i j ∧ M i j ≤ 1 := by
    by_contra hc
    unfold sbm at h
    rw [sbmCheck_not M hc] at h
    cases h
  refine ⟨hM, ?_⟩
  have key : ∀ t, sbmFinish connected lt (sbmTry M z directed loops u connected pop t 0) = .ok g →
      ∃ a, Graph.ofCsr (Sp.ofDense (sampleW M z directed loops u (a * sampleCalls N directed loops))) lt = .ok g ∧
      (connected = true → StronglyConnected (sampleW M z directed loops u (a * sampleCalls N directed loops))) := by
    intro t ht
    cases connected with
    | false =>
      cases t with
      | zero => cases ht
      | succ t =>
        rw [sbmTry_unconnected] at ht
        exact ⟨0, by simpa [sbmFinish] using ht, fun h => by cases h⟩
    | true =>
      by_cases hex : ∃ a < t, StronglyConnected (sampleW M z directed loops u (0 + a * sampleCalls N directed loops))
      · have hs := Nat.find_spec hex
        have hm := fun b (hb : b < Nat.find hex) => Nat.find_min hex hb
        rw [sbmTry_first M z directed loops u hN pop t (Nat.find hex) 0 hs.1 (fun b hb q => hm b hb ⟨by have := hs.1; omega, q⟩) hs.2] at ht
        rw [Nat.zero_add] at ht hs
        exact ⟨_, ht, fun _ => hs.2⟩
      · push Not at hex
        rw [sbmTry_none M z directed loops u hN pop t 0 hex] at ht
        cases ht
  unfold sbm at h
  rw [(sbmCheck_iff M).2 hM] at h
  simp only at h
  cases nTry with
  | some t => exact key t (Option.some.inj h)
  | none =>
    simp only at h
    split at h
    · exact key _ (Option.some.inj h)
    · cases h

theorem callIndex_inj {calls : ℕ} {r c r' c' : Fin N} (h : Drawn directed loops r.1 c.1) (h' : Drawn directed loops r'.1 c'.1)
    (e : callIndex N directed loops calls r.1 c.1 = callIndex N directed loops calls r'.1 c'.1) : r = r' ∧ c = c' := by
  unfold callIndex at e
  have p1 := step_pair (N := N) (c := c.1) r.2
  have p2 := step_pair (N := N) (c := c'.1) r'.2
  have := Nat.count_injective (p := DrawnAt N directed loops) (m := c.1 * N + r.1) (n := c'.1 * N + r'.1)
    (by unfold DrawnAt; rw [p1.1, p1.2]; exact h) (by unfold DrawnAt; rw [p2.1, p2.2]; exact h') (by omega)
  rw [this] at p1
  exact ⟨Fin.ext (p1.1.symm.trans p2.1), Fin.ext (p1.2.symm.trans p2.2)⟩

end

end Gen

section
variable {M : Matrix (Fin k) (Fin k) ℝ} {z : Fin N → Fin k} {directed loops connected : Bool} {u : ℕ → ℝ} {pop : ℕ → Pop N}
  {nTry : Option ℕ} {lt : LapType}

open Classical in
/-- **Every edge of a stochastic block model is decided by its own random number**: there is an injective numbering `idx` of the
eligible pairs `(i, j)` (only `j ≤ i` for an undirected graph, only `i ≠ j` without self-loops) such that the weight is one exactly
when the random number of the pair is smaller than the probability of its two blocks, and zero otherwise. -/
theorem C74_sampling (hN : 0 < N) {g : Graph N ℝ} (h : sbm M z directed loops u connected pop nTry lt = some (.ok g)) :
    ∃ idx : Fin N → Fin N → ℕ,
      (∀ i j i' j', (i ≠ j ∨ loops = true) → (j ≤ i ∨ directed = true) → (i' ≠ j' ∨ loops = true) → (j' ≤ i' ∨ directed = true) →
        idx i j = idx i' j' → i = i' ∧ j = j') ∧
      (∀ i j, (i ≠ j ∨ loops = true) → (j ≤ i ∨ directed = true) → g.W.dense i j = if u (idx i j) < M (z i) (z j) then 1 else 0) := by
  obtain ⟨hM, a, ha, -⟩ := sbm_ok M z directed loops u hN h
  obtain ⟨g1, -⟩ := Graph.ofCsr_ok ha
  have hd : g.W.dense = sampleW M z directed loops u (a * sampleCalls N directed loops) := by
    ext i j
    rw [g1, Sp.dense_eliminateZeros, Sp.dense_sumDuplicates, Sp.dense_ofDense]
  have hdr : ∀ i j : Fin N, (i ≠ j ∨ loops = true) → (j ≤ i ∨ directed = true) → Drawn directed loops i.1 j.1 := by
    intro i j h1 h2
    exact ⟨h1.imp (fun h e => h (Fin.ext e)) id, h2⟩
  refine ⟨fun i j => callIndex N directed loops (a * sampleCalls N directed loops) i.1 j.1, ?_, ?_⟩
  · intro i j i' j' h1 h2 h3 h4 e
    exact callIndex_inj directed loops (hdr i j h1 h2) (hdr i' j' h3 h4) e
  · intro i j h1 h2
    rw [hd, sampleW_apply]
    have := hdr i j h1 h2
    by_cases hdir : directed = true
    · rw [if_pos hdir]
      simp only [this, true_and]
    · rw [if_neg hdir, if_pos (h2.resolve_right hdir)]
      simp only [this, true_and]

/-- **A stochastic block model is a simple graph**: the weights are zero or one; it is undirected unless `directed=True`, without
self-loops unless `self_loops=True`, and connected when `connected=True`. -/
theorem C74_structure (hN : 0 < N) {g : Graph N ℝ} (h : sbm M z directed loops u connected pop nTry lt = some (.ok g)) :
    g.Built ∧ (∀ i j, g.W.dense i j = 0 ∨ g.W.dense i j = 1) ∧ (directed = false → Undirected g.W.dense) ∧
      (loops = false → ∀ i, g.W.dense i i = 0) ∧ (connected = true → StronglyConnected g.W.dense) := by
  classical
  obtain ⟨hM, a, ha, hc⟩ := sbm_ok M z directed loops u hN h
  obtain ⟨g1, -, -, hlt⟩ := Graph.ofCsr_ok ha
  have hb : g.Built := by
    obtain ⟨g', e1, e2, -⟩ := Graph.ofCsr_canonical _ (Sp.canonical_ofDense (sampleW M z directed loops u (a * sampleCalls N directed loops))) hlt
    rw [ha] at e1
    rw [Except.ok.inj e1]; exact e2
  have hd : g.W.dense = sampleW M z directed loops u (a * sampleCalls N directed loops) := by
    ext i j
    rw [g1, Sp.dense_eliminateZeros, Sp.dense_sumDuplicates, Sp.dense_ofDense]
  refine ⟨hb, fun i j => ?_, fun hdir i j => ?_, fun hl i => ?_, fun hcon => by rw [hd]; exact hc hcon⟩
  · rw [hd, sampleW_apply]
    split
    · split <;> simp
    · split
      · split <;> simp
      · split <;> simp
  · have hnd : ¬ directed = true := by simp [hdir]
    rw [hd, sampleW_apply, sampleW_apply, if_neg hnd, if_neg hnd]
    rcases lt_trichotomy i j with q | q | q
    · rw [if_neg (not_le.2 q), if_pos q.le]
    · subst q; rfl
    · rw [if_pos q.le, if_neg (not_le.2 q)]
  · have hn : ¬ Drawn directed loops i.1 i.1 := by
      rintro ⟨h1 | h1, -⟩
      · exact h1 rfl
      · rw [hl] at h1; cases h1
    rw [hd, sampleW_apply]
    simp only [hn, false_and, if_false, ite_self]

/-- Probabilities one and zero are certain: with random numbers in `[0, 1)`, an eligible pair is connected when the probability of its
blocks is one and not connected when it is zero. -/
theorem C74_certain (hN : 0 < N) (hu : ∀ c, 0 ≤ u c ∧ u c < 1) {g : Graph N ℝ}
    (h : sbm M z directed loops u connected pop nTry lt = some (.ok g)) (i j : Fin N) (h1 : i ≠ j ∨ loops = true) (h2 : j ≤ i ∨ directed = true) :
    (M (z i) (z j) = 1 → g.W.dense i j = 1) ∧ (M (z i) (z j) = 0 → g.W.dense i j = 0) := by
  classical
  obtain ⟨idx, -, hidx⟩ := C74_sampling hN h
  rw [hidx i j h1 h2]
  exact ⟨fun e => by rw [e, if_pos (hu _).2], fun e => by rw [e, if_neg (not_lt.2 (hu _).1)]⟩

/-- Probabilities outside `[0, 1]` raise ValueError; without the option `connected`, `n_try=0` leaves no graph (UnboundLocalError)
and otherwise the first sample is returned. -/
theorem C74_errors :
    ((¬ ∀ i j, 0 ≤ M i j ∧ M i j ≤ 1) → sbm M z directed loops u connected pop nTry lt = some (.error .valueError)) ∧
    ((∀ i j, 0 ≤ M i j ∧ M i j ≤ 1) → sbm M z directed loops u false pop (some 0) lt = some (.error .nameError)) ∧
    ((∀ i j, 0 ≤ M i j ∧ M i j ≤ 1) → (lt = .combinatorial ∨ lt = .normalized) → nTry ≠ some 0 →
      ∃ g, sbm M z directed loops u false pop nTry lt = some (.ok g)) := by
  classical
  refine ⟨fun h => ?_, fun h => ?_, fun h hlt hne => ?_⟩
  · unfold sbm
    rw [sbmCheck_not M h]
  · unfold sbm
    rw [(sbmCheck_iff M).2 h]
    rfl
  · obtain ⟨g, hg, -⟩ := Graph.ofCsr_canonical _ (Sp.canonical_ofDense (sampleW M z directed loops u 0)) hlt
    refine ⟨g, ?_⟩
    unfold sbm
    rw [(sbmCheck_iff M).2 h]
    simp only
    cases nTry with
    | some t =>
      cases t with
      | zero => exact absurd rfl hne
      | succ t =>
        simp only
        rw [sbmTry_unconnected]
        simp only [sbmFinish, hg]
    | none =>
      have hex : ∃ t, sbmTry M z directed loops u false pop t 0 ≠ .ok none := ⟨1, by rw [sbmTry_unconnected]; simp⟩
      simp only
      rw [dif_pos hex]
      have h0 : Nat.find hex ≠ 0 := by
        intro e
        have := Nat.find_spec hex
        rw [e] at this
        exact this rfl
      obtain ⟨t, ht⟩ : ∃ t, Nat.find hex = t + 1 := ⟨Nat.find hex - 1, by omega⟩
      rw [ht, sbmTry_unconnected]
      simp only [sbmFinish, hg]

/-- **`connected=True` returns the first connected sample**: with `m` the number of random numbers used by one sample, the `a`-th
sample is what the generator returns without that option on the random numbers `u (a * m), u (a * m + 1), ...`.  If the first `n_try`
samples are not connected, ValueError is raised; with `n_try=None` the call does not return if no sample ever is connected. -/
theorem C74_connected (hN : 0 < N) (hM : ∀ i j, 0 ≤ M i j ∧ M i j ≤ 1) (hlt : lt = .combinatorial ∨ lt = .normalized) :
    ∃ (m : ℕ) (sample : ℕ → Graph N ℝ),
      (∀ a, sbm M z directed loops (fun c => u (a * m + c)) false pop (some 1) lt = some (.ok (sample a))) ∧
      (∀ t, (∀ a < t, ¬ StronglyConnected (sample a).W.dense) → sbm M z directed loops u true pop (some t) lt = some (.error .valueError)) ∧
      (∀ a, (∀ b < a, ¬ StronglyConnected (sample b).W.dense) → StronglyConnected (sample a).W.dense →
        (∀ t, a < t → sbm M z directed loops u true pop (some t) lt = some (.ok (sample a))) ∧
        sbm M z directed loops u true pop none lt = some (.ok (sample a))) ∧
      ((∀ a, ¬ StronglyConnected (sample a).W.dense) → sbm M z directed loops u true pop none lt = none) := by
  classical
  have hex : ∀ a, ∃ g : Graph N ℝ, Graph.ofCsr (Sp.ofDense (sampleW M z directed loops u (a * sampleCalls N directed loops))) lt = .ok g ∧
      g.W.dense = sampleW M z directed loops u (a * sampleCalls N directed loops) := by
    intro a
    obtain ⟨g, g1, -, g3, -⟩ := Graph.ofCsr_canonical _ (Sp.canonical_ofDense (sampleW M z directed loops u (a * sampleCalls N directed loops))) hlt
    rw [Sp.dense_ofDense] at g3
    exact ⟨g, g1, g3⟩
  choose sample hs1 hs2 using hex
  refine ⟨sampleCalls N directed loops, sample, fun a => ?_, fun t ht => ?_, fun a hb ha => ?_, fun hn => ?_⟩
  · unfold sbm
    rw [(sbmCheck_iff M).2 hM]
    simp only
    rw [sbmTry_unconnected, ← sampleW_shift]
    simp only [sbmFinish, hs1]
  · unfold sbm
    rw [(sbmCheck_iff M).2 hM]
    simp only
    rw [sbmTry_none M z directed loops u hN pop t 0 fun a hat => by rw [Nat.zero_add, ← hs2]; exact ht a hat]
    rfl
  · have hval : ∀ t, a < t → sbmTry M z directed loops u true pop t 0 = .ok (some (sampleW M z directed loops u (a * sampleCalls N directed loops))) := by
      intro t hat
      have := sbmTry_first M z directed loops u hN pop t a 0 hat (fun b hba => by rw [Nat.zero_add, ← hs2]; exact hb b hba)
        (by rw [Nat.zero_add, ← hs2]; exact ha)
      rwa [Nat.zero_add] at this
    constructor
    · intro t hat
      unfold sbm
      rw [(sbmCheck_iff M).2 hM]
      simp only
      rw [hval t hat]
      simp only [sbmFinish, hs1]
    · have hex : ∃ t, sbmTry M z directed loops u true pop t 0 ≠ .ok none := ⟨a + 1, by rw [hval _ (by omega)]; simp⟩
      unfold sbm
      rw [(sbmCheck_iff M).2 hM]
      simp only
      rw [dif_pos hex]
      have hfind : a < Nat.find hex := by
        by_contra hle
        push Not at hle
        refine Nat.find_spec hex (sbmTry_none M z directed loops u hN pop _ 0 fun b hb' => ?_)
        rw [Nat.zero_add, ← hs2]
        exact hb b (by omega)
      rw [hval _ hfind]
      simp only [sbmFinish, hs1]
  · unfold sbm
    rw [(sbmCheck_iff M).2 hM]
    simp only
    rw [dif_neg]
    rintro ⟨t, ht⟩
    exact ht (sbmTry_none M z directed loops u hN pop t 0 fun a _ => by rw [Nat.zero_add, ← hs2]; exact hn a)

end

/-- The labels that are drawn are sorted, and are a rearrangement of the drawn ones. -/
theorem C74_labels (drawn : Fin N → Fin k) :
    Monotone (sbmLabels drawn none) ∧ ∃ σ : Equiv.Perm (Fin N), sbmLabels drawn none = drawn ∘ σ :=
  ⟨Tuple.monotone_sort drawn, Tuple.sort drawn, rfl⟩

/-- **The probabilities built from `p` and `q`**: `p` inside the blocks and `q` between them (0.3 / k by default), for a number or
a vector of length `k`, and a number or a float matrix; ValueError for the wrong shapes. -/
theorem C74_probabilities (k : ℕ) (p : PArg) (q : QArg) :
    (∀ x, p = .scalar x → (∃ M q', sbmMatrix k p .default = .ok (M, q') ∧ ∀ i j, M i j = if i = j then x else 0.3 / k) ∧
      (∀ y, ∃ M q', sbmMatrix k p (.scalar y) = .ok (M, q') ∧ ∀ i j, M i j = if i = j then x else y) ∧
      (∀ y : ℕ → ℕ → ℝ, ∃ M q', sbmMatrix k p (.matrix false k k y) = .ok (M, q') ∧ ∀ i j, M i j = if i = j then x else y i.1 j.1)) ∧
    (∀ v : ℕ → ℝ, p = .vector k v → (∃ M q', sbmMatrix k p .default = .ok (M, q') ∧ ∀ i j, M i j = if i = j then v i.1 else 0.3 / k) ∧
      (∀ y, ∃ M q', sbmMatrix k p (.scalar y) = .ok (M, q') ∧ ∀ i j, M i j = if i = j then v i.1 else y) ∧
      (∀ y : ℕ → ℕ → ℝ, ∃ M q', sbmMatrix k p (.matrix false k k y) = .ok (M, q') ∧ ∀ i j, M i j = if i = j then v i.1 else y i.1 j.1)) ∧
    (sbmMatrix k p q = .error .valueError ↔
      (∃ len v, p = .vector len v ∧ len ≠ 1 ∧ len ≠ k) ∨ ∃ b r c y, q = .matrix b r c y ∧ r * c ≠ 1 ∧ ¬ (r = k ∧ c = k)) := by
  have hone : ∀ k : ℕ, k * k = 1 → k = 1 := by
    intro k h
    exact Nat.eq_one_of_mul_eq_one_right h
  have hM : ∀ (pv : Fin k → ℝ) (y : ℕ → ℕ → ℝ), ∃ M q', sbmQ k pv (.matrix false k k y) = .ok (M, q') ∧
      ∀ i j, M i j = if i = j then pv i else y i.1 j.1 := by
    intro pv y
    simp only [sbmQ]
    by_cases h1 : k * k = 1
    · obtain rfl := hone k h1
      rw [if_pos rfl]
      refine ⟨_, _, rfl, fun i j => ?_⟩
      rw [Subsingleton.elim i 0, Subsingleton.elim j 0]
      simp
    · rw [if_neg h1]
      simp only [and_self, if_true]
      exact ⟨_, _, rfl, fun i j => by simp⟩
  refine ⟨?_, ?_, ?_⟩
  · rintro x rfl
    exact ⟨⟨_, _, rfl, fun i j => rfl⟩, fun y => ⟨_, _, rfl, fun i j => rfl⟩, hM _⟩
  · rintro v rfl
    have hvec : sbmP k (.vector k v) = .ok fun i => v i.1 := by
      simp only [sbmP]
      by_cases h1 : k = 1
      · subst h1
        rw [if_pos rfl]
        refine congrArg Except.ok (funext fun i => ?_)
        rw [Subsingleton.elim i 0]; rfl
      · rw [if_neg h1, if_pos trivial]
    unfold sbmMatrix
    rw [hvec]
    exact ⟨⟨_, _, rfl, fun i j => rfl⟩, fun y => ⟨_, _, rfl, fun i j => rfl⟩, hM _⟩
  · have hq : ∀ pv : Fin k → ℝ, sbmQ k pv q = .error .valueError ↔ ∃ b r c y, q = .matrix b r c y ∧ r * c ≠ 1 ∧ ¬ (r = k ∧ c = k) := by
      intro pv
      cases q with
      | default => simp [sbmQ]
      | scalar x => simp [sbmQ]
      | matrix b r c y =>
        simp only [sbmQ]
        by_cases h1 : r * c = 1
        · rw [if_pos h1]
          simp only [reduceCtorEq, false_iff, not_exists]
          rintro b' r' c' y' ⟨h, h2, -⟩
          cases h
          exact h2 h1
        · rw [if_neg h1]
          by_cases h2 : r = k ∧ c = k
          · rw [if_pos h2]
            simp only [reduceCtorEq, false_iff, not_exists]
            rintro b' r' c' y' ⟨h, -, h3⟩
            cases h
            exact h3 h2
          · rw [if_neg h2]
            exact ⟨fun _ => ⟨b, r, c, y, rfl, h1, h2⟩, fun _ => rfl⟩
    unfold sbmMatrix
    cases p with
    | scalar x =>
      simp only [sbmP]
      rw [hq]
      simp
    | vector len v =>
      simp only [sbmP]
      by_cases h1 : len = 1
      · rw [if_pos h1]
        simp only
        rw [hq]
        constructor
        · exact .inr
        · rintro (⟨l, w, h, h2, -⟩ | h)
          · cases h; exact absurd h1 h2
          · exact h
      · rw [if_neg h1]
        by_cases h2 : len = k
        · rw [if_pos h2]
          simp only
          rw [hq]
          constructor
          · exact .inr
          · rintro (⟨l, w, h, -, h3⟩ | h)
            · cases h; exact absurd h2 h3
            · exact h
        · rw [if_neg h2]
          simp only [true_iff]
          exact .inl ⟨len, v, rfl, h1, h2⟩

/-- When `q` is an integer matrix, a probability `p` in `[0, 1)` is truncated: no edges inside the blocks at all. -/
theorem C74_integer_q_violated {k : ℕ} (hk : 2 ≤ k) {p : ℝ} (hp : 0 ≤ p) (hp1 : p < 1) (y : ℕ → ℕ → ℝ) :
    ∃ M q', sbmMatrix k (.scalar p) (.matrix true k k y) = .ok (M, q') ∧ ∀ i, M i i = 0 := by
  simp only [sbmMatrix, sbmP, sbmQ]
  have h1 : ¬ k * k = 1 := by nlinarith
  rw [if_neg h1]
  simp only [and_self, if_true]
  refine ⟨_, _, rfl, fun i => ?_⟩
  simp only [Matrix.of_apply, if_true, truncate, if_pos hp]
  rw [Int.floor_eq_zero_iff.2 ⟨hp, hp1⟩]
  simp

/-- The matrix `q` of the user is modified: its diagonal is overwritten by `p`. -/
theorem C74_q_overwritten_violated {k : ℕ} (hk : 2 ≤ k) (p : ℝ) (y : ℕ → ℕ → ℝ) :
    ∃ M y', sbmMatrix k (.scalar p) (.matrix false k k y) = .ok (M, .matrix false k k y') ∧ ∀ i < k, y' i i = p := by
  simp only [sbmMatrix, sbmP, sbmQ]
  have h1 : ¬ k * k = 1 := by nlinarith
  rw [if_neg h1]
  simp only [and_self, if_true]
  refine ⟨_, _, rfl, fun i hi => ?_⟩
  simp [hi]

open Classical in
/-- **`ErdosRenyi(N, p)`**: every eligible pair is connected exactly when its own random number is smaller than `p`; ValueError when `p`
is not in `[0, 1]`. -/
theorem C74_erdosRenyi (hN : 0 < N) {p : ℝ} {directed loops connected : Bool} {u : ℕ → ℝ} {pop : ℕ → Pop N} {nTry : Option ℕ} {lt : LapType} :
    (¬ (0 ≤ p ∧ p ≤ 1) → erdosRenyi N p directed loops connected u pop nTry lt = some (.error .valueError)) ∧
    ∀ g, erdosRenyi N p directed loops connected u pop nTry lt = some (.ok g) →
      (∀ i j, g.W.dense i j = 0 ∨ g.W.dense i j = 1) ∧ (directed = false → Undirected g.W.dense) ∧
      (loops = false → ∀ i, g.W.dense i i = 0) ∧ (connected = true → StronglyConnected g.W.dense) ∧
      ∃ idx : Fin N → Fin N → ℕ,
        (∀ i j i' j', (i ≠ j ∨ loops = true) → (j ≤ i ∨ directed = true) → (i' ≠ j' ∨ loops = true) → (j' ≤ i' ∨ directed = true) →
          idx i j = idx i' j' → i = i' ∧ j = j') ∧
        (∀ i j, (i ≠ j ∨ loops = true) → (j ≤ i ∨ directed = true) → g.W.dense i j = if u (idx i j) < p then 1 else 0) := by
  obtain ⟨⟨M, q', h1, h2⟩, -⟩ := (C74_probabilities 1 (.scalar p) .default).1 p rfl
  have hM : ∀ i j, M i j = p := fun i j => by rw [h2, if_pos (Subsingleton.elim _ _)]
  have he : erdosRenyi N p directed loops connected u pop nTry lt =
      sbm M (sbmLabels (fun _ => 0) none) directed loops u connected pop nTry lt := by
    unfold erdosRenyi
    rw [h1]
  rw [he]
  refine ⟨fun hp => C74_errors.1 fun h => hp ?_, fun g hg => ?_⟩
  · rw [← hM 0 0]; exact h 0 0
  · obtain ⟨-, s1, s2, s3, s4⟩ := C74_structure hN hg
    obtain ⟨idx, t1, t2⟩ := C74_sampling hN hg
    refine ⟨s1, s2, s3, s4, idx, t1, fun i j a b => ?_⟩
    rw [t2 i j a b, hM]

/-- the generator returns a graph for a concrete sequence of random numbers, and a connected one with `p = 1` -/
example (pop : ℕ → Pop 3) : ∃ g, erdosRenyi 3 1 false false false (fun _ => 1 / 2) pop (some 10) .combinatorial = some (.ok g) ∧ g.W.dense 2 0 = 1 ∧
    g.W.dense 0 0 = 0 := by
  obtain ⟨⟨M, q', h1, h2⟩, -⟩ := (C74_probabilities 1 (.scalar 1) .default).1 1 rfl
  have hM : ∀ i j, M i j = 1 := fun i j => by rw [h2, if_pos (Subsingleton.elim _ _)]
  obtain ⟨g, hg⟩ := (C74_errors (M := M) (z := sbmLabels (fun _ : Fin 3 => 0) none) (directed := false) (loops := false) (connected := false)
    (u := fun _ => 1 / 2) (pop := pop) (nTry := some 10) (lt := .combinatorial)).2.2 (fun i j => by rw [hM]; norm_num) (.inl rfl) (by simp)
  refine ⟨g, by unfold erdosRenyi; rw [h1]; exact hg, ?_, (C74_structure (by norm_num) hg).2.2.2.1 rfl 0⟩
  exact (C74_certain (by norm_num) (fun c => by norm_num) hg 2 0 (.inl (by decide)) (.inl (by decide))).1 (hM _ _)

end PyGSP
