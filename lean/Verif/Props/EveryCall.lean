import Verif.Props.LmaxBounds
import Verif.Props.Learning

/-!
# C03, C05, C07, C15, C16, C23 after any history of calls, and the remaining clauses of C58
-/

namespace PyGSP

open Matrix Spec GState

variable {n : ℕ}

section calls

variable {S : Solvers n} (hS : Sound S) {g : Graph n ℝ} (hg : g.Built) (ops : List (Op n)) {s : GState n} (hs : s = runAll S ops (GState.ofGraph g))
include hS hg hs

/-- **C03** `is_directed()` on the first and on every later call, after any history of calls. -/
theorem C03_every_call : (s.isDirected.1 = true ↔ ∃ i j, g.W.dense i j ≠ g.W.dense j i) ∧ s.isDirected.2.isDirected.1 = s.isDirected.1 := by
  have h1 := (C18_structure hS hg ops hs).1
  refine ⟨h1.trans ?_, ?_⟩
  · unfold Undirected
    push Not
    rfl
  · unfold GState.isDirected
    cases h : s.directed with
    | none => rfl
    | some b =>
      dsimp only
      rw [h]

/-- **C05** `is_connected()` after any history of calls, in particular when the answer is cached. -/
theorem C05_every_call (hn : 0 < n) (pop : Pop n) :
    ∃ b, (s.isConnected pop).1 = .ok b ∧ (b = true ↔ ∀ i j, Relation.ReflTransGen (fun a c => g.W.dense a c ≠ 0) i j) := by
  obtain ⟨b, h1, h2⟩ := C18_connected hS hg ops hs hn pop
  exact ⟨b, h1, h2⟩

/-- **C07** `G.d` and `G.dw` after any history of calls. -/
theorem C07_every_call (i : Fin n) :
    s.getD.1 i = (((Finset.univ.filter fun j => g.W.dense j i ≠ 0).card : ℝ) + ((Finset.univ.filter fun j => g.W.dense i j ≠ 0).card : ℝ)) / 2 ∧
    s.getDw.1 i = ((∑ j, g.W.dense j i) + ∑ j, g.W.dense i j) / 2 := by
  obtain ⟨-, h1, h2, -⟩ := C18_structure hS hg ops hs
  rw [h1, h2]
  exact ⟨C07_degree g hg i, by rw [← C07_weighted_degree, dw_eq]⟩

/-- **C15** After any history of calls `estimate_lmax('bounds')` makes `G.lmax` a number that no eigenvalue of `G.L` exceeds. -/
theorem C15_estimate (hW : NonnegW g.W.dense) (hn : 0 < n) (hk : Known s.lapType) (hm : s.lmaxMethod ≠ some .bounds) :
    ∃ B : ℝ, ((s.estimateLmax S .bounds).2.getLmax S).1 = .ok (some (.fin B)) ∧ ∀ l, IsEigenvalue s.L l → l ≤ B := by
  obtain ⟨hi, hWs, -⟩ := reach_inv hS hg ops
  rw [← hs] at hi hWs
  have hL := (C18_laplacian hS hg ops hs).2 hk
  have hW' : NonnegW s.cur.W.dense := by rw [show s.cur.W = g.W from hWs]; exact hW
  obtain ⟨B, L', k1, k2, k3⟩ := C15_upper_bound s.cur (hi.built.withLapType _ hk) hW' hn
  have hLL : L' = s.L := by
    rw [show s.cur.W = g.W from hWs, show s.cur.lapType = s.lapType from rfl] at k2
    exact Except.ok.inj (k2.symm.trans hL)
  rw [hLL] at k3
  refine ⟨B, ?_, k3⟩
  obtain ⟨h2, h3⟩ := C109_estimate hS hg hW hn ops hs hm
  rcases hk with hk | hk
  · obtain ⟨B', w, d, e1, e2, e3, e4⟩ := h3 hk
    obtain ⟨B2, w2, d2, j1, j2, j3, j4⟩ := C109_value s.cur (hi.built.withLapType _ (.inl hk)) hk hW' hn
    rw [show s.cur.W = g.W from hWs] at j2 j3 j4
    obtain rfl := j2.unique e2
    obtain rfl := j3.unique e3
    obtain rfl := j4.unique e4
    obtain rfl : B = B2 := PyNum.fin.inj (Except.ok.inj (k1.symm.trans j1))
    exact e1
  · have : B = 2 := by
      have : s.cur.upperBound = .ok (.fin 2) := by
        unfold Graph.upperBound
        rw [show s.cur.lapType = .normalized from hk]
      exact PyNum.fin.inj (Except.ok.inj (k1.symm.trans this))
    rw [this]
    exact h2 hk

/-- **C16** `gft` and `igft` accept exactly the signals of the length of the graph: any other raises ValueError and leaves the graph as it was; with a complete
basis the others are transformed into a signal of the same length. -/
theorem C16_fourier {R : Type} [AddCommGroup R] [Module ℝ R] {b : Basis n} (hb : (s.getBasis S).1 = .ok (some b)) (hbk : b.k = n) (x : Rows R) :
    (x.len ≠ n → s.gft S x = (.error .valueError, s) ∧ s.igft S x = (.error .valueError, s)) ∧
    (x.len = n → (∃ y, (s.gft S x).1 = .ok y ∧ y.len = n) ∧ ∃ y, (s.igft S x).1 = .ok y ∧ y.len = n) := by
  refine ⟨fun h => C24_length_check S s x h, fun h => ?_⟩
  obtain ⟨k, x⟩ := x
  obtain rfl : k = n := h
  obtain ⟨y, s', h1, h2, -⟩ := C24_igft_gft hS hg ops hs b hb hbk x
  obtain ⟨y', s'', h3, h4, -⟩ := C24_gft_igft hS hg ops hs b hb hbk x
  exact ⟨⟨y, by rw [h1], h2⟩, ⟨y', by rw [h3], h4⟩⟩

end calls

/-- **C23** Relabelling the vertices relabels the edge set, and the edge list up to the orientation in which an undirected edge is listed. -/
theorem C23_edges (σ : Equiv.Perm (Fin n)) (g g' : Graph n ℝ) (hg : g.Built) (hg' : g'.Built) (h : Relabel σ g.W.dense g'.W.dense) :
    edges g'.W.dense = (edges g.W.dense).image (Sym2.map σ) ∧
    ∃ l l', g.getEdgeList = .ok l ∧ g'.getEdgeList = .ok l' ∧ l'.length = l.length ∧
      ∀ i j w, (i, j, w) ∈ l → (σ i, σ j, w) ∈ l' ∨ (Undirected g.W.dense ∧ (σ j, σ i, w) ∈ l') := by
  constructor
  · ext e
    simp only [edges, arcs, Finset.mem_image, Finset.mem_filter, Finset.mem_univ, true_and]
    constructor
    · rintro ⟨⟨a, c⟩, h1, rfl⟩
      refine ⟨s(σ.symm a, σ.symm c), ⟨(σ.symm a, σ.symm c), ?_, rfl⟩, by simp⟩
      have := h (σ.symm a) (σ.symm c)
      rw [σ.apply_symm_apply, σ.apply_symm_apply] at this
      simpa [← this] using h1
    · rintro ⟨-, ⟨⟨a, c⟩, h1, rfl⟩, rfl⟩
      exact ⟨(σ a, σ c), by simpa [h a c] using h1, by simp⟩
  · obtain ⟨l, h1, h2, -, h3⟩ := C04_edge_list g hg
    obtain ⟨l', h1', h2', -, h3'⟩ := C04_edge_list g' hg'
    have hu : Undirected g'.W.dense → Undirected g.W.dense := fun hu i j => by
      rw [← h i j, ← h j i]; exact hu _ _
    refine ⟨l, l', h1, h1', by rw [h2, h2', (C23_structure σ g g' hg hg' h ⟨fun _ s h => h.choose, fun _ s h => h.choose_spec⟩).2.1], fun i j w hm => ?_⟩
    obtain ⟨k1, k2, k3⟩ := (h3 i j w).1 hm
    by_cases hd : Undirected g'.W.dense
    · rcases le_total (σ i) (σ j) with hle | hle
      · exact .inl ((h3' _ _ _).2 ⟨by rw [h, k1], k2, fun _ => hle⟩)
      · exact .inr ⟨hu hd, (h3' _ _ _).2 ⟨by rw [hd, h, k1], k2, fun _ => hle⟩⟩
    · exact .inl ((h3' _ _ _).2 ⟨by rw [h, k1], k2, fun h => absurd h hd⟩)

namespace Learning

/-- **C58**, **C59**, **C60** What `y` contains where the mask is false has no influence on the result, whatever `tau`, the matrix and the dtype. -/
theorem C58_unmeasured_ignored (cg) (isInt : Bool) (L : Matrix (Fin n) (Fin n) ℝ) (m : Fin n → Bool) (tau : ℝ) :
    (∀ y y' : Fin n → ℝ, (∀ v, m v = true → y v = y' v) → regression1 cg isInt L y m tau = regression1 cg isInt L y' m tau) ∧
    (∀ (k : ℕ) (y y' : Fin n → Fin k → ℝ), (∀ v, m v = true → y v = y' v) → regression2 cg L y m tau = regression2 cg L y' m tau) ∧
    ∀ y y' : Fin n → ℤ, (∀ v, m v = true → y v = y' v) → classification cg L y m tau = classification cg L y' m tau := by
  have hmask : ∀ y y' : Fin n → ℝ, (∀ v, m v = true → y v = y' v) → mask m y = mask m y' := by
    intro y y' h
    funext v
    unfold mask
    by_cases hv : m v = true
    · simp [hv, h v hv]
    · simp [hv]
  have hsolve : ∀ y y' : Fin n → ℝ, (∀ v, m v = true → y v = y' v) → solveUnlabelled L m y = solveUnlabelled L m y' := by
    intro y y' h
    unfold solveUnlabelled
    rw [show (fun v : { v : Fin n // m v = true } => y v.1) = fun v => y' v.1 from funext fun v => h v.1 v.2]
  have hfill : ∀ (b : Bool) (y y' : Fin n → ℝ), (∀ v, m v = true → y v = y' v) → fill b m y = fill b m y' := by
    intro b y y' h
    funext part v
    unfold fill
    by_cases hv : m v = false
    · simp [hv]
    · simp [hv, h v (by simpa using hv)]
  refine ⟨?_, ?_, ?_⟩
  · intro y y' h
    unfold regression1
    simp only [dite_true, Fin.cast_eq_self]
    rw [hmask y y' h, hsolve y y' h, hfill isInt y y' h]
  · intro k y y' h
    unfold regression2
    have hj : ∀ j v, m v = true → y v j = y' v j := fun j v hv => by rw [h v hv]
    simp only [dite_true, Fin.cast_eq_self]
    rw [show (fun j => solveUnlabelled L m fun v => y v j) = fun j => solveUnlabelled L m fun v => y' v j from funext fun j => hsolve _ _ (hj j),
      show (fun v j => cg (penalised L m tau) (mask m fun v => y v j) v) = fun v j => cg (penalised L m tau) (mask m fun v => y' v j) v from
        funext fun v => funext fun j => by rw [hmask _ _ (hj j)]]
    have : ∀ part : (j : Fin k) → Unlabelled m → ℝ, (fun v j => fill false m (fun v => y v j) (part j) v) = fun v j => fill false m (fun v => y' v j) (part j) v :=
      fun part => funext fun v => funext fun j => by rw [hfill _ _ _ (hj j)]
    cases seqFin k fun j => solveUnlabelled L m fun v => y' v j with
    | error e => rfl
    | ok part => 
      dsimp only
      rw [this part]
  · intro y y' h
    unfold classification
    simp only [dite_true, Fin.cast_eq_self]
    rw [show (fun v => if m v = true then y v else 0) = fun v => if m v = true then y' v else 0 from
      funext fun v => by by_cases hv : m v = true <;> simp [hv, h v]]

section

variable {S : Solvers n} (hS : Sound S) {g : Graph n ℝ} (hg : g.Built) (hist : List (Op n)) {s : GState n} (hs : s = runAll S hist (GState.ofGraph g))
include hS hg hs

/-- **C58** With the combinatorial Laplacian the interpolation is harmonic: at a vertex that was not measured it is the mean of its neighbours' values with the
weights of the edges. -/
theorem C58_harmonic (hc : s.lapType = .combinatorial) (cg) {y : Fin n → ℝ} {m : Fin n → Bool} {tau : ℝ} (ht : tau ≤ 0) {x : Fin n → ℝ}
    (hx : regression1 cg false s.L y m tau = .ok x) {v : Fin n} (hv : m v = false) :
    wdeg g.W.dense v * x v = ∑ j, wsym g.W.dense v j * x j := by
  rw [L_combinatorial hS hg hist hs hc, regression1_nonpos _ _ _ _ _ ht] at hx
  cases hp : solveUnlabelled (combLap g.W.dense) m y with
  | error e => rw [hp] at hx; cases hx
  | ok part =>
    rw [hp] at hx
    have hx : fill false m y part = x := Except.ok.inj hx
    have h := (solveUnlabelled_ok hp).2 v hv
    rw [hx, combLap_mulVec] at h
    rw [← sum_wsym, Finset.sum_mul, ← sub_eq_zero, ← Finset.sum_sub_distrib, ← h]
    exact Finset.sum_congr rfl fun j _ => by ring

/-- **C58** A 2-D array of one column cannot be interpolated unless exactly one vertex is not measured. -/
theorem C58_one_column_violated (hW : NonnegW g.W.dense) (hc : s.lapType = .combinatorial) (cg) (y : Fin n → Fin 1 → ℝ) (m : Fin n → Bool)
    (ha : Anchored g.W.dense m) (hu : 2 ≤ Fintype.card (Unlabelled m)) {tau : ℝ} (ht : tau ≤ 0) :
    regression2 cg s.L y m tau = .error .valueError := by
  obtain ⟨⟨v, hv⟩⟩ : Nonempty (Unlabelled m) := Fintype.card_pos_iff.1 (by omega)
  have hpart : ∀ j, ∃ part, solveUnlabelled s.L m (fun v => y v j) = .ok part := fun j => by
    rw [L_combinatorial hS hg hist hs hc]
    exact solveUnlabelled_comb hW ha ⟨v, hv⟩ _
  choose part hpart using hpart
  have hseq : seqFin 1 (fun j => solveUnlabelled s.L m fun v => y v j) = .ok part := by
    rw [seqFin_ok]; exact hpart
  unfold regression2
  rw [if_neg (not_lt.2 ht), dif_pos rfl]
  simp only [Fin.cast_eq_self]
  rw [if_neg (by omega), hseq]
  dsimp only
  exact if_pos ⟨trivial, by change Fintype.card (Unlabelled m) ≠ 1; omega⟩

end

/-- the hypotheses are met: a path of four vertices of which the first is measured -/
example : ∃ (S : Solvers 4) (g : Graph 4 ℝ) (s : GState 4) (m : Fin 4 → Bool), Sound S ∧ g.Built ∧ s = runAll S [] (GState.ofGraph g) ∧ NonnegW g.W.dense ∧
    Known s.lapType ∧ s.lapType = .combinatorial ∧ s.lmaxMethod ≠ some .bounds ∧ Anchored g.W.dense m ∧ 2 ≤ Fintype.card (Unlabelled m) := by
  obtain ⟨S, hS, -⟩ := exists_sound 4
  obtain ⟨g, hg, hd, hl⟩ := Graph.exists_built (K := ℝ) path4 .combinatorial
  have h0 := GState.ofGraph_inv (S := S) g hg
  have hl : (GState.ofGraph g).lapType = .combinatorial := by rw [h0.2.2.1, hl]
  refine ⟨S, g, GState.ofGraph g, ![true, false, false, false], hS, hg, rfl, by rw [hd]; exact path4_nonneg, .inl hl, hl, ?_, ?_, ?_⟩
  · rw [h0.2.2.2.2.1]; simp
  · intro v
    exact ⟨0, rfl, by rw [hd]; exact path4_connected v 0⟩
  · simp [Fintype.card_subtype]
    decide

end Learning

end PyGSP
