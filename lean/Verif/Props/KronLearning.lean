import Verif.Props.Regularisation
import Verif.Props.Kron
import Verif.Props.Components
import Verif.Props.Simplex

/-!
# C122: learning on the Kron-reduced graph is learning on the graph
-/

namespace PyGSP

open Matrix Spec GState Learning Reduction

variable {n k : ℕ}

/-- What `kron_reduction(G, ind)` needs: an undirected graph with the combinatorial Laplacian, distinct kept vertices, at least two of them
and not all, every vertex being linked to one of them. -/
structure Spec.Reducible (g : Graph n ℝ) (s : GState n) (ind : Fin k → Fin n) : Prop where
  comb : s.lapType = .combinatorial
  undirected : Undirected g.W.dense
  distinct : Function.Injective ind
  two : 2 ≤ k
  some : ∃ v, ∀ a, ind a ≠ v
  linked : ∀ v, ∃ a, Linked g.W.dense v (ind a)

variable {S : Solvers n} {g : Graph n ℝ} {s : GState n} {S' : Solvers k} {g' : Graph k ℝ} {s' : GState k} {ind : Fin k → Fin n} {R : Type}
  {c : Coords n R} {c' : Coords k R}

namespace KronLearning

/-- the Laplacians of the two graphs -/
theorem schur_of (h : Ready S g s) (hr : Reducible g s ind) (hkr : kronGraph s c ind = .ok (g', c')) (h' : Ready S' g' s')
    (hc' : s'.lapType = .combinatorial) : IsSchur s.L ind s'.L ∧ ∀ a b, Linked g'.W.dense a b ↔ Linked g.W.dense (ind a) (ind b) := by
  obtain ⟨hist, hs⟩ := h.reached
  obtain ⟨hist', hs'⟩ := h'.reached
  have hcm : c ≠ .missing := by
    rintro rfl
    exact C62_coords_violated s ind (g', c') hkr
  obtain ⟨hsch, g1, ⟨c1, h1, -⟩, -, -, -, h5, -, h7⟩ := kronGraph_core h.sound h.built hist hs hr.comb hr.undirected h.nonneg hr.distinct hr.two hr.some
    hr.linked c hcm
  rw [hkr] at h1
  obtain ⟨rfl, rfl⟩ : g' = g1 ∧ c' = c1 := by simpa using h1
  rw [← h7] at hsch
  rw [L_combinatorial h.sound h.built hist hs hr.comb, L_combinatorial h'.sound h'.built hist' hs' hc']
  exact ⟨hsch, schur_linked h.nonneg hsch hr.distinct h5 rfl⟩

theorem anchored_of (hl : ∀ a b, Linked g'.W.dense a b ↔ Linked g.W.dense (ind a) (ind b)) {m : Fin n → Bool} (hm : ∀ v, m v = true → ∃ a, ind a = v)
    (ha : Anchored g.W.dense m) : Anchored g'.W.dense fun a => m (ind a) := by
  intro a
  obtain ⟨b, hb, hab⟩ := ha (ind a)
  obtain ⟨a', rfl⟩ := hm b hb
  exact ⟨a', hb, (hl a a').2 hab⟩

theorem misfit_of (hi : Function.Injective ind) {m : Fin n → Bool} (hm : ∀ v, m v = true → ∃ a, ind a = v) (f : Fin n → ℝ) :
    (∑ v, if m v then f v else 0) = ∑ a, if m (ind a) then f (ind a) else 0 := by
  rw [sum_kept hi, add_eq_left]
  refine Finset.sum_eq_zero fun u _ => if_neg fun h => ?_
  obtain ⟨a, ha⟩ := hm u.1 h
  exact (kept_false_iff ind u.1).1 u.2 a ha

theorem smooth_dirichlet (h : Ready S g s) (hc : s.lapType = .combinatorial) (x : Fin n → ℝ) : smoothness s.L x = dirichlet g.W.dense x := by
  obtain ⟨hist, hs⟩ := h.reached
  rw [L_combinatorial h.sound h.built hist hs hc]
  exact combLap_quad _ _

end KronLearning

open KronLearning

/-- **C122** Measurements at kept vertices only, any `tau`: `regression_tikhonov` on the Kron-reduced graph succeeds and returns the values at the kept
vertices of the regression on the whole graph, with the same smoothness. -/
theorem C122_regression (h : Ready S g s) (hr : Reducible g s ind) (hkr : kronGraph s c ind = .ok (g', c')) (h' : Ready S' g' s')
    (hc' : s'.lapType = .combinatorial) {cg cg'} (hcg : ExactCG cg) (hcg' : ExactCG cg') {m : Fin n → Bool} (hm : ∀ v, m v = true → ∃ a, ind a = v)
    (ha : Anchored g.W.dense m) (y : Fin n → ℝ) {tau : ℝ} (ht : 0 < tau ∨ ∃ a, m (ind a) = false) :
    ∃ (x : Fin n → ℝ) (x' : Fin k → ℝ), regression1 cg false s.L y m tau = .ok x ∧
      regression1 cg' false s'.L (fun a => y (ind a)) (fun a => m (ind a)) tau = .ok x' ∧ (∀ a, x' a = x (ind a)) ∧
      dirichlet g'.W.dense x' = dirichlet g.W.dense x := by
  obtain ⟨hsch, hlk⟩ := schur_of h hr hkr h' hc'
  obtain ⟨hsym, hpsd⟩ := ready_lap h
  have ha' := anchored_of hlk hm ha
  obtain ⟨hist, hs⟩ := h.reached
  obtain ⟨hist', hs'⟩ := h'.reached
  have hen := hsch.energy hr.distinct hsym hpsd
  simp only [← smooth_dirichlet h hr.comb, ← smooth_dirichlet h' hc']
  rcases lt_or_ge 0 tau with h0 | h0
  · obtain ⟨x, hx, hmin⟩ := C59_minimises h.sound h.built hist hs h.nonneg hcg false y m h0
    obtain ⟨x', hx', huniq, -⟩ := C59_unique_bounded h'.sound h'.built hist' hs' h'.nonneg hc' hcg' false (fun a => y (ind a)) (fun a => m (ind a)) ha' h0
    obtain ⟨v, hv, hve⟩ := (hen x').1
    have e1 : objective s.L m y tau v = objective s'.L (fun a => m (ind a)) (fun a => y (ind a)) tau x' := by
      unfold objective
      rw [hve, misfit_of hr.distinct hm fun w => (v w - y w) ^ 2]
      simp only [hv]
    have e2 : objective s'.L (fun a => m (ind a)) (fun a => y (ind a)) tau (fun a => x (ind a)) ≤ objective s.L m y tau x := by
      unfold objective
      rw [misfit_of hr.distinct hm fun w => (x w - y w) ^ 2]
      have := mul_le_mul_of_nonneg_left ((hen fun a => x (ind a)).2 x fun a => rfl) h0.le
      linarith
    have h3 := huniq _ (e2.trans ((hmin v).trans e1.le))
    refine ⟨x, x', hx, hx', fun a => (congrFun h3 a).symm, ?_⟩
    have h4 := (hmin v).trans e1.le
    unfold objective at h4
    rw [misfit_of hr.distinct hm fun w => (x w - y w) ^ 2, ← h3] at h4
    have h5 := (hen fun a => x (ind a)).2 x fun a => rfl
    rw [← h3]
    refine le_antisymm h5 ?_
    have h6 : tau * smoothness s.L x ≤ tau * smoothness s'.L (fun a => x (ind a)) := by linarith
    exact le_of_mul_le_mul_left h6 h0
  · obtain ⟨a0, ha0⟩ := ht.resolve_left (not_lt.2 h0)
    obtain ⟨x, hx, hxm, hmin, -⟩ := C58_interpolation h.sound h.built hist hs h.nonneg hr.comb cg y m ha ⟨_, ha0⟩ h0
    obtain ⟨x', hx', hxm', hmin', -⟩ := C58_interpolation h'.sound h'.built hist' hs' h'.nonneg hc' cg' (fun a => y (ind a)) (fun a => m (ind a)) ha' ⟨a0, ha0⟩ h0
    obtain ⟨v, hv, hve⟩ := (hen x').1
    have h1 : smoothness s.L x ≤ smoothness s.L v := (hmin v fun w hw => by
      obtain ⟨a, rfl⟩ := hm w hw
      rw [hv, hxm' a hw]).1
    have h2 := hmin' (fun a => x (ind a)) fun a hw => hxm _ hw
    have h3 := (hen fun a => x (ind a)).2 x fun a => rfl
    have h4 : smoothness s'.L (fun a => x (ind a)) = smoothness s'.L x' := le_antisymm (h3.trans (h1.trans hve.le)) h2.1
    have h5 := h2.2 h4
    refine ⟨x, x', hx, hx', fun a => (congrFun h5 a).symm, ?_⟩
    rw [← h4]
    exact le_antisymm h3 (h1.trans (hve.le.trans h4.ge))

/-- **C122** ... and the values at all the other vertices are found from those of the reduced graph by interpolation (`tau = 0`). -/
theorem C122_two_steps (h : Ready S g s) (hr : Reducible g s ind) (hkr : kronGraph s c ind = .ok (g', c')) (h' : Ready S' g' s')
    (hc' : s'.lapType = .combinatorial) {cg cg'} (hcg : ExactCG cg) (hcg' : ExactCG cg') {m : Fin n → Bool} (hm : ∀ v, m v = true → ∃ a, ind a = v)
    (ha : Anchored g.W.dense m) (y : Fin n → ℝ) {tau : ℝ} (ht : 0 < tau ∨ ∃ a, m (ind a) = false) {x' : Fin k → ℝ}
    (hx' : regression1 cg' false s'.L (fun a => y (ind a)) (fun a => m (ind a)) tau = .ok x') {y2 : Fin n → ℝ} (hy2 : ∀ a, y2 (ind a) = x' a)
    {m2 : Fin n → Bool} (hm2 : ∀ v, m2 v = true ↔ ∃ a, ind a = v) (cg2) :
    regression1 cg false s.L y m tau = regression1 cg2 false s.L y2 m2 0 := by
  obtain ⟨x, x1, hx, hx1, hxx, -⟩ := C122_regression h hr hkr h' hc' hcg hcg' hm ha y ht
  rw [hx'] at hx1
  obtain rfl := Except.ok.inj hx1
  obtain ⟨hist, hs⟩ := h.reached
  have hL := L_combinatorial h.sound h.built hist hs hr.comb
  have hanch : Anchored g.W.dense m2 := fun v => by
    obtain ⟨a, hva⟩ := hr.linked v
    exact ⟨ind a, (hm2 _).2 ⟨a, rfl⟩, hva⟩
  obtain ⟨v0, hv0⟩ := hr.some
  have hm20 : ∀ v, (∀ a, ind a ≠ v) → m2 v = false := fun v hv => by
    rw [← Bool.not_eq_true, hm2]
    rintro ⟨a, ha⟩
    exact hv a ha
  obtain ⟨z, hz, -⟩ := C58_interpolation h.sound h.built hist hs h.nonneg hr.comb cg2 y2 m2 hanch ⟨v0, hm20 v0 hv0⟩ le_rfl
  obtain ⟨hz1, hz2⟩ := interpolation_spec le_rfl hz
  -- `x` is harmonic outside the kept vertices
  have hx0 : ∀ v, m v = false → (s.L *ᵥ x) v = 0 := by
    rcases lt_or_ge 0 tau with h0 | h0
    · intro v hv
      have e := congrFun (normal_eq h hcg h0 hx) v
      rw [penalised_mulVec] at e
      simp only [mask, hv, Bool.false_eq_true, if_false, zero_add] at e
      exact (mul_eq_zero.1 e).resolve_left h0.ne'
    · exact (interpolation_spec h0 hx).2
  have hd : ∀ v, m2 v = false → (combLap g.W.dense *ᵥ (x - z)) v = 0 := by
    intro v hv
    have hmv : m v = false := by
      rw [← Bool.not_eq_true]
      intro hmv
      have := (hm2 v).2 (hm v hmv)
      rw [hv] at this; cases this
    rw [← hL, Matrix.mulVec_sub, Pi.sub_apply, hx0 v hmv, hz2 v hv, sub_zero]
  have hb : ∀ v, m2 v = true → (x - z) v = 0 := by
    intro v hv
    obtain ⟨a, rfl⟩ := (hm2 v).1 hv
    rw [Pi.sub_apply, hz1 _ hv, hy2, hxx, sub_self]
  rw [hx, hz]
  congr 1
  funext v
  obtain ⟨b, hb1, h1⟩ := max_principle h.nonneg (fun v => m2 v = true) hanch (x - z) (fun v hv => (hd v (by simpa using hv)).le) v
  obtain ⟨b', hb2, h2⟩ := min_principle h.nonneg (fun v => m2 v = true) hanch (x - z) (fun v hv => (hd v (by simpa using hv)).ge) v
  rw [hb b hb1, Pi.sub_apply] at h1
  rw [hb b' hb2, Pi.sub_apply] at h2
  linarith

theorem KronLearning.regression2_cols {cg : Matrix (Fin n) (Fin n) ℝ → (Fin n → ℝ) → Fin n → ℝ} {L : Matrix (Fin n) (Fin n) ℝ} {d : ℕ} (hd : 2 ≤ d)
    {Y : Fin n → Fin d → ℝ} {m : Fin n → Bool} {tau : ℝ} {X : Fin d → Fin n → ℝ}
    (h : ∀ j, regression1 cg false L (fun v => Y v j) m tau = .ok (X j)) : regression2 cg L Y m tau = .ok fun v j => X j v := by
  rcases lt_or_ge 0 tau with h0 | h0
  · unfold regression2
    rw [if_pos h0, dif_pos rfl]
    refine congrArg Except.ok ?_
    funext v j
    have := h j
    unfold regression1 at this
    rw [if_pos h0, dif_pos rfl] at this
    exact congrFun (Except.ok.inj this) v
  · have hpart : ∀ j, ∃ part, solveUnlabelled L m (fun v => Y v j) = .ok part ∧ fill false m (fun v => Y v j) part = X j := by
      intro j
      have := h j
      rw [regression1_nonpos _ _ _ _ _ h0] at this
      rcases hp : solveUnlabelled L m (fun v => Y v j) with e | part
      · rw [hp] at this; cases this
      · rw [hp] at this
        exact ⟨part, rfl, Except.ok.inj this⟩
    choose part hp1 hp2 using hpart
    unfold regression2
    rw [if_neg (not_lt.2 h0), dif_pos rfl]
    simp only [Fin.cast_eq_self]
    rw [if_neg (by omega), (seqFin_ok _ _ _).2 hp1]
    simp only
    rw [if_neg (by omega)]
    congr 1
    funext v j
    rw [hp2]

/-- **C122** Labels at kept vertices only, any `tau`: `classification_tikhonov` on the Kron-reduced graph returns the rows of the kept vertices of the
classification on the whole graph. -/
theorem C122_classification (h : Ready S g s) (hr : Reducible g s ind) (hkr : kronGraph s c ind = .ok (g', c')) (h' : Ready S' g' s')
    (hc' : s'.lapType = .combinatorial) {cg cg'} (hcg : ExactCG cg) (hcg' : ExactCG cg') {m : Fin n → Bool} (hm : ∀ v, m v = true → ∃ a, ind a = v)
    (ha : Anchored g.W.dense m) (y : Fin n → ℕ) (hcl : ∃ v, m v = true ∧ y v ≠ 0) {tau : ℝ} (ht : 0 < tau ∨ ∃ a, m (ind a) = false) :
    ∃ (d : ℕ) (X : Fin n → Fin d → ℝ), classification cg s.L (fun v => (y v : ℤ)) m tau = .ok ⟨d, X⟩ ∧
      classification cg' s'.L (fun a => (y (ind a) : ℤ)) (fun a => m (ind a)) tau = .ok ⟨d, fun a => X (ind a)⟩ := by
  obtain ⟨d, Y, hY, hk, ⟨v0, hv0⟩, hval⟩ := C60_logits h.pos fun v => if m v then y v else 0
  obtain ⟨d', Y', hY', hk', ⟨a0, ha0⟩, hval'⟩ := C60_logits h'.pos fun a => if m (ind a) then y (ind a) else 0
  obtain ⟨v1, hv1, hy1⟩ := hcl
  have hd2 : 2 ≤ d := by have := hk v1; rw [if_pos hv1] at this; omega
  have hv0m : m v0 = true := by
    cases h : m v0 with
    | true => rfl
    | false => rw [h] at hv0; simp at hv0; omega
  obtain rfl : d = d' := by
    obtain ⟨b, rfl⟩ := hm v0 hv0m
    have h1 := hk' b
    have h2 := hk (ind a0)
    omega
  have hYY : ∀ a j, Y' a j = Y (ind a) j := fun a j => by rw [hval, hval']
  have := fun j : Fin d => C122_regression h hr hkr h' hc' hcg hcg' hm ha (fun v => Y v j) ht
  choose X X' h1 h2 h3 _ using this
  refine ⟨d, fun v j => X j v, classification_eq cg _ y m tau hY (regression2_cols hd2 h1), ?_⟩
  have e : (fun a j => X j (ind a)) = fun a j => X' j a := by funext a j; rw [h3]
  rw [e]
  exact classification_eq cg' _ (fun a => y (ind a)) (fun a => m (ind a)) tau hY' (regression2_cols hd2 fun j => by simp only [hYY]; exact h2 j)

/-- The hypotheses hold together: the path with 4 vertices reduced to its ends and a middle vertex, the ends being measured. -/
example : ∃ (S : Solvers 4) (g : Graph 4 ℝ) (s : GState 4) (S' : Solvers 3) (g' : Graph 3 ℝ) (s' : GState 3) (c' : Coords 3 ℝ)
    (cg : Matrix (Fin 4) (Fin 4) ℝ → (Fin 4 → ℝ) → Fin 4 → ℝ) (cg' : Matrix (Fin 3) (Fin 3) ℝ → (Fin 3 → ℝ) → Fin 3 → ℝ),
    Ready S g s ∧ Reducible g s (![0, 1, 3] : Fin 3 → Fin 4) ∧ kronGraph s (.rows ![0, 1, 2, 3]) (![0, 1, 3] : Fin 3 → Fin 4) = .ok (g', c') ∧ Ready S' g' s' ∧
    s'.lapType = .combinatorial ∧ ExactCG cg ∧ ExactCG cg' ∧ Anchored g.W.dense ![true, false, false, true] ∧
    ∀ v, (![true, false, false, true] : Fin 4 → Bool) v = true → ∃ a, (![0, 1, 3] : Fin 3 → Fin 4) a = v := by
  obtain ⟨S, g, s, hd, h, hl, -⟩ := exists_ready path4 path4_nonneg (by norm_num)
  obtain ⟨cg, hcg⟩ := exists_cg 4
  obtain ⟨cg', hcg'⟩ := exists_cg 3
  obtain ⟨hist, hs⟩ := h.reached
  have hr : Reducible g s (![0, 1, 3] : Fin 3 → Fin 4) := ⟨hl, by
      rw [hd]; intro i j; fin_cases i <;> fin_cases j <;> simp [path4], by decide, by norm_num, ⟨2, by decide⟩,
    fun v => ⟨0, by rw [hd]; exact path4_connected v 0⟩⟩
  obtain ⟨-, g', ⟨c', h1, -⟩, b1, l1, -, p1, -, -⟩ := kronGraph_core h.sound h.built hist hs hr.comb hr.undirected h.nonneg hr.distinct hr.two hr.some
    hr.linked (.rows ![(0 : ℝ), 1, 2, 3]) (by simp)
  obtain ⟨S', s', h', hl', -⟩ := ready_ofGraph b1 p1 (by norm_num) l1
  exact ⟨S, g, s, S', g', s', c', cg, cg', h, hr, h1, h', hl', hcg, hcg', fun v => ⟨0, rfl, by rw [hd]; exact path4_connected v 0⟩, by decide⟩

end PyGSP
