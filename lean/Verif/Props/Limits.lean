import Verif.Props.Preferences

/-!
# C136: the entry `limits` of the preferences, and the positions of the vertices
-/

namespace PyGSP.Prefs

open Matrix Layout Gen

theorem limits_of (h : List Op) {c : Cls} {d : Dict} (hd : own c = some d) {v : Val} (hv : get d "limits" = some v) :
    (make c none (run h)).2.pref (run h).next "limits" = some v := by
  rw [((C136_made h c).1).2.1, hd, Option.bind_some, hv]
  rfl

theorem unit_box {x y : ℝ} (h : x ^ 2 + y ^ 2 = 1) : InBox [-1, 1, -1, 1] [x, y] :=
  ⟨by nlinarith [sq_nonneg y], by nlinarith [sq_nonneg y], by nlinarith [sq_nonneg x], by nlinarith [sq_nonneg x], trivial⟩

/-- **C136** The vertices of `Path` are in the limits announced. -/
theorem C136_limits_path (h : List Op) {N : ℕ} (hN : 0 < N) (S : Solvers N) (directed : Bool) {lt : LapType} (hlt : lt = .combinatorial ∨ lt = .normalized) :
    ∃ (s : LState N) (x : Fin N → Fin 2 → ℝ) (l : List ℝ), pathDrawn S directed lt = .ok s ∧ s.coords = .array (.of2 x) ∧
      (make (.path N) none (run h)).2.pref (run h).next "limits" = some (.nums l) ∧ ∀ i, InBox l [x i 0, x i 1] := by
  obtain ⟨g, hg, -, -, hW⟩ := C67_weights hN directed hlt
  refine ⟨⟨GState.ofGraph g, .array (.of2 fun i : Fin N => ![(i : ℝ), 0]), none⟩, fun i => ![(i : ℝ), 0], _, ?_, rfl, limits_of h rfl rfl, fun i => ?_⟩
  · unfold pathDrawn
    rw [hg]
    rfl
  · have h1 : (i.val : ℝ) ≤ N := by exact_mod_cast i.2.le
    have h0 : (0 : ℝ) ≤ i.val := Nat.cast_nonneg _
    exact ⟨by show (-1 : ℝ) ≤ i.val; linarith, h1, by show (-1 : ℝ) ≤ 0; norm_num, by show (0 : ℝ) ≤ 1; norm_num, trivial⟩

/-- **C136** The vertices of `Ring` are in the limits announced. -/
theorem C136_limits_ring (h : List Op) {N k : ℕ} (hN : 3 ≤ N) (hk : 2 * k < N) (S : Solvers N) {lt : LapType} (hlt : lt = .combinatorial ∨ lt = .normalized) :
    ∃ (s : LState N) (x : Fin N → Fin 2 → ℝ) (l : List ℝ), ringDrawn S k lt = .ok s ∧ s.coords = .array (.of2 x) ∧
      (make .ring none (run h)).2.pref (run h).next "limits" = some (.nums l) ∧ ∀ i, InBox l [x i 0, x i 1] := by
  obtain ⟨s, g, x, h1, -, -, h2, -, h3, -⟩ := C107_ring hN hk S hlt
  exact ⟨s, x, _, h1, h2, limits_of h rfl rfl, fun i => unit_box (h3 i)⟩

/-- **C136** The vertices of `RandomRing` are in the limits announced. -/
theorem C136_limits_randomRing (h : List Op) {N : ℕ} {angles : Option (List ℝ)} {draw : ℕ → List ℝ} {l : List ℝ}
    (hA : angles = some l ∨ angles = none ∧ l = draw N ∧ l.length = N) (hr : ∀ x ∈ l, 0 ≤ x ∧ x < 2 * Real.pi) (hd : l.Nodup)
    (h3 : 3 ≤ l.length) {lt : LapType} (hlt : lt = .combinatorial ∨ lt = .normalized) :
    ∃ r b, randomRing N angles draw lt = .ok r ∧ (make .randomRing none (run h)).2.pref (run h).next "limits" = some (.nums b) ∧
      ∀ p ∈ r.coords, InBox b [p.1, p.2] := by
  obtain ⟨r, h1, -, -, -, h2, -⟩ := C80_weights hA hr hd h3 hlt
  refine ⟨r, _, h1, limits_of h rfl rfl, fun p hp => ?_⟩
  rw [h2] at hp
  obtain ⟨a, -, rfl⟩ := List.mem_map.mp hp
  exact unit_box (Real.cos_sq_add_sin_sq a)

/-- **C136** The vertices of `Torus` are in the limits announced. -/
theorem C136_limits_torus (h : List Op) (Nv Mv : ℕ) :
    ∃ l, (make .torus none (run h)).2.pref (run h).next "limits" = some (.nums l) ∧
      ∀ v, InBox l [torusCoords Nv Mv v 0, torusCoords Nv Mv v 1, torusCoords Nv Mv v 2] := by
  refine ⟨_, limits_of h rfl rfl, fun v => ?_⟩
  have hb : ∀ c s : ℝ, -1 ≤ c → c ≤ 1 → -1 ≤ s → s ≤ 1 → -2.5 ≤ c * (1.5 + s) ∧ c * (1.5 + s) ≤ 2.5 := by
    intro c s h1 h2 h3 h4
    constructor <;> nlinarith
  simp only [torusCoords, flattenF, cons_val_zero, cons_val_one, cons_val]
  have hx := hb _ _ (Real.neg_one_le_cos ((v.val % Nv : ℕ) * 2 * Real.pi / Nv)) (Real.cos_le_one _) (Real.neg_one_le_sin ((v.val / Nv : ℕ) * 2 * Real.pi / Mv)) (Real.sin_le_one _)
  have hy := hb _ _ (Real.neg_one_le_sin ((v.val % Nv : ℕ) * 2 * Real.pi / Nv)) (Real.sin_le_one _) (Real.neg_one_le_sin ((v.val / Nv : ℕ) * 2 * Real.pi / Mv)) (Real.sin_le_one _)
  have hz1 := Real.neg_one_le_cos ((v.val / Nv : ℕ) * 2 * Real.pi / Mv)
  have hz2 := Real.cos_le_one ((v.val / Nv : ℕ) * 2 * Real.pi / Mv)
  exact ⟨hx.1, hx.2, hy.1, hy.2, by linarith, by linarith, trivial⟩

/-- **C136** The vertices of `Star` are in the limits announced. -/
theorem C136_limits_star (h : List Op) (N : ℕ) :
    ∃ l, (make .star none (run h)).2.pref (run h).next "limits" = some (.nums l) ∧
      ∀ v < N, InBox l [(cometCoords (N - 1) v).1, (cometCoords (N - 1) v).2] := by
  refine ⟨_, limits_of h rfl rfl, fun v hv => ?_⟩
  unfold cometCoords
  split
  · exact ⟨by norm_num, by norm_num, by norm_num, by norm_num, trivial⟩
  · rw [if_pos (by omega)]
    have h1 := Real.neg_one_le_cos (v * 2 * Real.pi / ((N - 1 : ℕ) : ℝ))
    have h2 := Real.cos_le_one (v * 2 * Real.pi / ((N - 1 : ℕ) : ℝ))
    have h3 := Real.neg_one_le_sin (v * 2 * Real.pi / ((N - 1 : ℕ) : ℝ))
    have h4 := Real.sin_le_one (v * 2 * Real.pi / ((N - 1 : ℕ) : ℝ))
    exact ⟨by dsimp only; linarith, by dsimp only; linarith, by dsimp only; linarith, by dsimp only; linarith, trivial⟩

/-- **C136** The vertices of `LowStretchTree` are in the limits announced. -/
theorem C136_limits_tree (h : List Op) {k : ℕ} (hk : 1 ≤ k) {lt : LapType} {g : Graph (4 ^ (k - 1 + 1)) ℝ} (hg : lowStretchTree k lt = .ok g) :
    ∃ l, (make (.lowStretchTree k) none (run h)).2.pref (run h).next "limits" = some (.nums l) ∧
      ∀ v : Fin (4 ^ (k - 1 + 1)), InBox l [((lsCoords k v).1 : ℝ), ((lsCoords k v).2 : ℝ)] := by
  refine ⟨_, limits_of h rfl rfl, fun v => ?_⟩
  obtain ⟨-, h2, -, h4⟩ := (C77_grid hk hg).1 v
  have h2' : ((lsCoords k v).1 : ℝ) ≤ 2 ^ k := by exact_mod_cast h2
  have h4' : ((lsCoords k v).2 : ℝ) ≤ 2 ^ k := by exact_mod_cast h4
  exact ⟨Nat.cast_nonneg _, by linarith, Nat.cast_nonneg _, by linarith, trivial⟩

/-- **C136** The sensors of `Sensor` and of `DavidSensorNet` (for another number of sensors than 64 and 500) are in the limits announced. -/
theorem C136_limits_sensors (h : List Op) {N : ℕ} :
    (∃ l, (make .sensor none (run h)).2.pref (run h).next "limits" = some (.nums l) ∧
      (∀ (U P : Fin N → Fin 2 → ℝ), (∀ i a, 0 ≤ U i a ∧ U i a < 1) → sensorCoords false U = .ok P → ∀ i, InBox l [P i 0, P i 1]) ∧
      ∀ (U P : Fin N → Fin 2 → ℝ), (∀ i a, 0 ≤ U i a ∧ U i a < 1 / N.sqrt) → sensorCoords true U = .ok P → ∀ i, InBox l [P i 0, P i 1]) ∧
    ∃ l, (make .davidSensorNet none (run h)).2.pref (run h).next "limits" = some (.nums l) ∧
      ∀ (P Q : Matrix (Fin N) (Fin 2) ℝ) (lt : LapType) (g : Graph N ℝ), N ≠ 64 → N ≠ 500 → lt = .combinatorial ∨ lt = .normalized →
        (∀ i a, 0 ≤ P i a ∧ P i a < 1) → davidSensorNet P lt = .ok (g, Q) → ∀ i, InBox l [Q i 0, Q i 1] := by
  have box : ∀ x : Fin 2 → ℝ, (∀ a, 0 ≤ x a ∧ x a < 1) → InBox [0, 1, 0, 1] [x 0, x 1] :=
    fun x hx => ⟨(hx 0).1, (hx 0).2.le, (hx 1).1, (hx 1).2.le, trivial⟩
  refine ⟨⟨_, limits_of h rfl rfl, fun U P hU hP i => ?_, fun U P hU hP i => ?_⟩, _, limits_of h rfl rfl, fun P Q lt g h1 h2 hlt hP hg i => ?_⟩
  · unfold sensorCoords at hP
    simp only [Bool.false_eq_true, if_false, Except.ok.injEq] at hP
    subst hP
    exact box _ (hU i)
  · by_cases hsq : ∃ m, m * m = N
    · obtain ⟨m, hm⟩ := hsq
      have hm' : N.sqrt = m := by rw [← hm, Nat.sqrt_eq]
      rw [hm'] at hU
      have hpos : 0 < m := by
        have := i.pos
        rcases Nat.eq_zero_or_pos m with rfl | h0
        · omega
        · exact h0
      obtain ⟨P', e, -, -, -, a4⟩ := (C95_sensor_cells (U := U) (P := P)).2 m hpos hm hU
      rw [hP] at e
      cases e
      exact box _ (a4 i)
    · rw [(C95_sensor_cells (U := U) (P := P)).1 hsq] at hP
      cases hP
  · obtain ⟨g', e, -⟩ := C94_david h1 h2 P hlt
    rw [hg] at e
    cases e
    exact box _ (hP i)

/-- **C136, Violated: the limits of `Grid2d`** leave out the bottom row of every grid. -/
theorem C136_limits_grid_violated (h : List Op) {N1 N2 : ℕ} (h1 : 0 < N1) (h2 : 2 ≤ N2) :
    ∃ (l : List ℝ) (x : Fin (N1 * N2) → ℝ × ℝ), (make (.grid2d N1 N2) none (run h)).2.pref (run h).next "limits" = some (.nums l) ∧
      gridPoints N1 N2 = List.ofFn x ∧ (∀ p, p.val / N2 + 1 = N1 → (x p).2 = 0 ∧ ¬ InBox l [(x p).1, (x p).2]) ∧
      ∀ p, p.val / N2 + 1 < N1 → InBox l [(x p).1, (x p).2] := by
  obtain ⟨g, hg⟩ : ∃ g, grid2d N1 N2 0 .combinatorial = .ok g := by
    obtain ⟨g, hg, -⟩ := C70_weights h1 h2 (diagonal := 0) (lt := .combinatorial) (.inl rfl)
    exact ⟨g, hg⟩
  obtain ⟨x, hx, -, hp, hb, -⟩ := C107_grid h1 h2 (.inl rfl) hg
  have hN1 : (0 : ℝ) < N1 := by exact_mod_cast h1
  have hN2 : (0 : ℝ) < N2 := by exact_mod_cast (by omega : 0 < N2)
  refine ⟨_, x, limits_of h rfl rfl, hx, fun p e => ?_, fun p e => ?_⟩
  · have hy : (x p).2 = 0 := by
      rw [hp p, e, div_self hN1.ne', sub_self]
    refine ⟨hy, fun hin => ?_⟩
    have : (1 : ℝ) / N1 ≤ (x p).2 := hin.2.2.1
    rw [hy] at this
    have h0 : (0 : ℝ) < 1 / N1 := by positivity
    linarith
  · obtain ⟨b1, b2, b3, b4⟩ := hb p
    have i1 : (0 : ℝ) < 1 / N1 := by positivity
    have i2 : (0 : ℝ) < 1 / N2 := by positivity
    refine ⟨?_, by linarith, ?_, by linarith, trivial⟩
    · have : (-1 : ℝ) / N2 = -(1 / N2) := by ring
      rw [this]
      linarith
    · rw [hp p]
      dsimp only
      have : ((p.val / N2 + 1 : ℕ) : ℝ) + 1 ≤ N1 := by exact_mod_cast e
      rw [le_sub_iff_add_le, ← add_div, div_le_one hN1]
      linarith

/-- **C136, Violated: the limits of `SwissRoll`** do not contain all rolls: the coordinates are divided by their largest value, not by their largest absolute value, and can
be as low as -2. -/
theorem C136_limits_swissroll_violated (h : List Op) :
    ∃ (y1 y2 : Fin 3 → ℝ) (g : Graph 3 ℝ) (P : Matrix (Fin 3) (Fin 2) ℝ) (l : List ℝ), (∀ j, 0 ≤ y1 j ∧ y1 j < 1) ∧ (∀ j, 0 ≤ y2 j ∧ y2 j < 1) ∧
      swissRoll 1 4 2 1e-6 none none .classic y1 y2 .combinatorial = .ok (g, P) ∧
      (make .swissRoll none (run h)).2.pref (run h).next "limits" = some (.nums l) ∧ P 0 0 = -2 ∧ ¬ InBox l [P 0 0, P 0 1] := by
  have hy : ∀ j, 0 ≤ (![0, 1 / 3, 1 / 3] : Fin 3 → ℝ) j ∧ (![0, 1 / 3, 1 / 3] : Fin 3 → ℝ) j < 1 := by
    intro j
    fin_cases j <;> norm_num
  obtain ⟨g, P, hg⟩ := C94_swissroll_distinct (a := 1) (b := 4) (by norm_num) (by norm_num) (dim := 2) (.inl rfl) (thresh := 1e-6) (s := none) (by simp)
    (type := .classic) (.inr rfl) (y1 := ![0, 1 / 3, 1 / 3]) (y2 := fun _ => 0) hy (j := 0) (j' := 1) (by norm_num) (lt := .combinatorial) (.inl rfl)
  obtain ⟨-, hsum, hmax, ⟨j0, r0, hone⟩, c, t, X, hc, hX, hd, -, ht, -⟩ := C94_swissroll_points hy hg
  have ht' := ht rfl
  have hpi := Real.pi_pos
  have t0 : t 0 = Real.pi := by
    have := ht' 0
    rw [div_eq_iff hpi.ne'] at this
    rw [this]
    norm_num
  have t1 : ∀ j : Fin 3, j ≠ 0 → t j = 2 * Real.pi := by
    intro j hj
    have := ht' j
    rw [div_eq_iff hpi.ne'] at this
    rw [this]
    fin_cases j
    · exact absurd rfl hj
    · norm_num
    · norm_num
  have X0 : X 0 0 = -Real.pi ∧ X 0 1 = 0 := by
    have e0 := hX 0 0
    have e1 := hX 0 1
    rw [t0] at e0 e1
    constructor
    · rw [e0]
      simp
    · rw [e1]
      simp
  have X1 : ∀ j : Fin 3, j ≠ 0 → X j 0 = 2 * Real.pi ∧ X j 1 = 0 := by
    intro j hj
    have e0 := hX j 0
    have e1 := hX j 1
    rw [t1 j hj] at e0 e1
    constructor
    · rw [e0]
      simp
    · rw [e1]
      simp
  have hd' : ∀ j j' r, c * (P j r - P j' r) = X j r - X j' r := by
    intro j j' r
    have := hd j j' r
    simpa using this
  have s0 := hsum 0
  have s1 := hsum 1
  rw [Fin.sum_univ_three] at s0 s1
  have a1 := hd' 1 0 0
  have a2 := hd' 2 0 0
  have b1 := hd' 1 0 1
  have b2 := hd' 2 0 1
  rw [(X1 1 (by decide)).1, X0.1] at a1
  rw [(X1 2 (by decide)).1, X0.1] at a2
  rw [(X1 1 (by decide)).2, X0.2, sub_self] at b1
  rw [(X1 2 (by decide)).2, X0.2, sub_self] at b2
  have q1 : P 1 1 = P 0 1 := by
    rcases mul_eq_zero.mp b1 with e | e
    · exact absurd e hc.ne'
    · linarith
  have q2 : P 2 1 = P 0 1 := by
    rcases mul_eq_zero.mp b2 with e | e
    · exact absurd e hc.ne'
    · linarith
  have p21 : P 2 0 = P 1 0 := by
    have : c * (P 2 0 - P 1 0) = 0 := by linarith
    rcases mul_eq_zero.mp this with e | e
    · exact absurd e hc.ne'
    · linarith
  have p0 : P 0 0 = -2 * P 1 0 := by linarith
  have hpos : 0 < P 1 0 := by
    have : 0 < c * (P 1 0 - P 0 0) := by rw [a1]; linarith
    have := (mul_pos_iff_of_pos_left hc).mp this
    linarith
  have hz : P 0 1 = 0 := by linarith
  have h11 : P 1 0 = 1 := by
    fin_cases j0 <;> fin_cases r0 <;> simp only [Fin.zero_eta, Fin.mk_one, Fin.reduceFinMk, Fin.isValue] at hone <;> linarith
  refine ⟨_, _, g, P, _, hy, fun j => ⟨le_rfl, by norm_num⟩, hg, limits_of h rfl rfl, by rw [p0, h11]; norm_num, fun hin => ?_⟩
  have : (-1 : ℝ) ≤ P 0 0 := hin.1
  rw [p0, h11] at this
  norm_num at this

/-! ### Examples -/

/-- A history: a sphere, a dictionary of the user, a graph with it, a change of the dictionary, a subgraph of the sphere, a change of the sphere. -/
noncomputable def sample : List Op :=
  [.make .sphere none, .dict [("vertex_size", .num 3), ("edge_width", .num 1)], .make .comet (some (.mine 0)), .set (.mine 0) "vertex_size" (.num 4), .derive 0,
    .set (.graph 0) "vertex_size" (.num 5)]

example : ∀ o ∈ sample, o.Sensible := by
  simp only [sample, List.mem_cons, List.not_mem_nil, or_false, forall_eq_or_imp, forall_eq, Op.Sensible, and_true, true_and]
  simp [Sensible]

example : (run sample).deref (.graph 0) ≠ none ∧ (run sample).deref (.graph 1) ≠ none ∧ (run sample).deref (.graph 2) ≠ none ∧ (run sample).deref (.mine 0) ≠ none := by
  simp [run, sample, step, make, derive, own, World.deref, World.addr, graphInit, World.alloc, start, World.modify]

/-- The sphere shows the last change, the other graphs what they were made with. -/
example : (run sample).pref (.graph 0) "vertex_size" = some (.num 5) ∧ (run sample).pref (.graph 1) "vertex_size" = some (.num 3) ∧
    (run sample).pref (.graph 2) "vertex_size" = some (.num 80) ∧ (run sample).pref (.mine 0) "vertex_size" = some (.num 4) ∧
    (run sample).pref (.graph 1) "edge_width" = some (.num 1) ∧ (run sample).pref (.graph 2) "edge_width" = some (.num 2) := by
  simp [run, sample, step, make, derive, own, World.pref, World.deref, World.addr, graphInit, World.alloc, start, World.modify, update, dictSet, defaults, get, List.lookup]

example : make .sphere (some (.mine 0)) (run sample) = (.error .typeError, run sample) :=
  ((C136_made sample .sphere).2 _ (by
    simp [run, sample, step, make, derive, own, World.deref, World.addr, graphInit, World.alloc, start, World.modify])).1 (by simp [own])

end PyGSP.Prefs
