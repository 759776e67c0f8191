import Verif.Props.PointClouds

/-!
# C95: Sensor, Sphere, Cube, TwoMoons
-/

namespace PyGSP.Gen

open Matrix Spec

variable {N d : ℕ}

theorem nnGraph_points {X : Fin N → Fin d → ℝ} {type : NNType} {k : ℕ} {sigma : Option ℝ} {epsilon : ℝ} {method : SymMethod}
    {dist : DistType} {nn : Fin N → List (Fin N)} {lt : LapType} {g : Graph N ℝ} {Y : Fin N → Fin d → ℝ}
    (h : nnGraph X type false false k sigma epsilon method dist nn lt = .ok (g, Y)) : Y = X := by
  obtain ⟨-, hY, -⟩ := nnGraph_ok h
  exact (Except.ok.inj hY).symm

/-! ### Sensor -/

/-- The cell `(a, b)` of the square divided into `m × m` cells. -/
def InCell (m a b : ℕ) (p : Fin 2 → ℝ) : Prop :=
  (a : ℝ) / m ≤ p 0 ∧ p 0 < (a + 1 : ℝ) / m ∧ (b : ℝ) / m ≤ p 1 ∧ p 1 < (b + 1 : ℝ) / m

theorem cell_unique {m a b a' b' : ℕ} {p : Fin 2 → ℝ} (hm : 0 < m) (h : InCell m a b p) (h' : InCell m a' b' p) : a = a' ∧ b = b' := by
  obtain ⟨x1, x2, x3, x4⟩ := h
  obtain ⟨y1, y2, y3, y4⟩ := h'
  have hm' : (0 : ℝ) < m := by exact_mod_cast hm
  have key : ∀ {u v : ℕ} {q : ℝ}, (u : ℝ) / m ≤ q → q < (v + 1 : ℝ) / m → u ≤ v := fun {u v q} h1 h2 => by
    have := (div_lt_div_iff_of_pos_right hm').1 (h1.trans_lt h2)
    have : u < v + 1 := by exact_mod_cast this
    omega
  exact ⟨le_antisymm (key x1 y2) (key y1 x2), le_antisymm (key x3 y4) (key y3 x4)⟩

/-- vertex `p` of a distributed network is in the cell `(p / m, p % m)` -/
theorem sensor_cell {U P : Fin N → Fin 2 → ℝ} (h : sensorCoords true U = .ok P) {m : ℕ} (hN : m * m = N) (hU : ∀ i a, 0 ≤ U i a ∧ U i a < 1 / m) (p : Fin N) :
    0 < m ∧ InCell m (p.val / m) (p.val % m) (P p) := by
  have hm : 0 < m := by
    rcases Nat.eq_zero_or_pos m with rfl | h
    · exact absurd p.isLt (by omega)
    · exact h
  have hm' : (0 : ℝ) < m := by exact_mod_cast hm
  subst hN
  unfold sensorCoords at h
  simp only [if_true, Nat.sqrt_eq, ne_eq, not_true_eq_false, if_false] at h
  rw [if_neg (by positivity)] at h
  have h := Except.ok.inj h
  refine ⟨hm, ?_⟩
  have u0 := hU p 0
  have u1 := hU p 1
  rw [← h]
  unfold InCell
  simp only [if_true, one_ne_zero, if_false, add_div, mul_one_div]
  refine ⟨?_, ?_, ?_, ?_⟩ <;> linarith

/-- **Distributed sensors**: exactly one sensor in each cell of the `m × m` grid of the unit square, so that the sensors are at different places; ValueError
when the number of sensors is not a perfect square. -/
theorem C95_sensor_cells {U P : Fin N → Fin 2 → ℝ} :
    ((¬ ∃ m, m * m = N) → sensorCoords true U = .error .valueError) ∧
    ∀ m, 0 < m → m * m = N → (∀ i a, 0 ≤ U i a ∧ U i a < 1 / m) → ∃ P, sensorCoords true U = .ok P ∧
      (∀ a < m, ∀ b < m, ∃! p, InCell m a b (P p)) ∧ (∀ p, ∃ a < m, ∃ b < m, InCell m a b (P p)) ∧
      (∀ p p', P p = P p' → p = p') ∧ ∀ p c, 0 ≤ P p c ∧ P p c < 1 := by
  constructor
  · intro h
    unfold sensorCoords
    simp only [if_true]
    rw [if_pos fun e => h ⟨_, e⟩]
  · intro m hm hN hU
    have hm' : (0 : ℝ) < m := by exact_mod_cast hm
    obtain ⟨P, hP⟩ : ∃ P, sensorCoords true U = .ok P := by
      subst hN
      unfold sensorCoords
      simp only [if_true, Nat.sqrt_eq, ne_eq, not_true_eq_false, if_false]
      rw [if_neg (by positivity)]
      exact ⟨_, rfl⟩
    have hc := fun p => (sensor_cell hP hN hU p).2
    have hdiv : ∀ p : Fin N, p.val / m < m := fun p => Nat.div_lt_of_lt_mul (hN.symm ▸ p.isLt)
    have huniq : ∀ p p' : Fin N, ∀ a b, InCell m a b (P p) → InCell m a b (P p') → p = p' := fun p p' a b h h' => by
      obtain ⟨e1, e2⟩ := cell_unique hm (hc p) h
      obtain ⟨e3, e4⟩ := cell_unique hm (hc p') h'
      apply Fin.ext
      rw [← Nat.div_add_mod p.val m, ← Nat.div_add_mod p'.val m, e1, e2, e3, e4]
    refine ⟨P, hP, fun a ha b hb => ?_, fun p => ⟨_, hdiv p, _, Nat.mod_lt _ hm, hc p⟩, fun p p' e => huniq p p' _ _ (hc p) (e ▸ hc p), fun p c => ?_⟩
    · have hlt : a * m + b < N := by
        calc a * m + b < a * m + m := by omega
          _ = (a + 1) * m := by ring
          _ ≤ m * m := Nat.mul_le_mul_right _ ha
          _ = N := hN
      have e1 : (a * m + b) / m = a := by rw [mul_comm, Nat.mul_add_div hm, Nat.div_eq_of_lt hb, add_zero]
      have e2 : (a * m + b) % m = b := by rw [mul_comm, Nat.mul_add_mod, Nat.mod_eq_of_lt hb]
      have := hc ⟨a * m + b, hlt⟩
      rw [e1, e2] at this
      exact ⟨_, this, fun p hp => huniq _ _ a b hp this⟩
    · obtain ⟨x1, x2, x3, x4⟩ := hc p
      have bound : ∀ {u : ℕ} {q : ℝ}, u < m → (u : ℝ) / m ≤ q → q < (u + 1 : ℝ) / m → 0 ≤ q ∧ q < 1 := fun {u q} hu h1 h2 => by
        refine ⟨le_trans (by positivity) h1, h2.trans_le ?_⟩
        rw [div_le_one hm']
        exact_mod_cast hu
      fin_cases c
      · exact bound (hdiv p) x1 x2
      · exact bound (Nat.mod_lt _ hm) x3 x4

/-- **Sensor**: each sensor is linked to at least its `k` nearest ones (so `k` is the minimum number of neighbors), the graph is undirected without self-loop and with
weights in [0, 1]; the coordinates are those drawn.  With distributed sensors this needs no assumption on the draws. -/
theorem C95_sensor {k : ℕ} {distributed : Bool} {U P : Fin N → Fin 2 → ℝ} {sigma : Option ℝ} {epsilon : ℝ} {method : SymMethod}
    {dist : DistType} {nn : Fin N → List (Fin N)} {lt : LapType} {g : Graph N ℝ}
    (h : sensor k distributed U .knn sigma epsilon method dist nn lt = .ok (g, P)) {p : MinkP} (hp : dist.order = .ok p)
    (hnn : KnnSpec k (fun i j => minkowski p (P i) (P j)) nn) (hσ : ∀ s, sigma = some s → 0 < s)
    (hU : if distributed then ∀ i a, 0 ≤ U i a ∧ U i a < 1 / N.sqrt else (∀ i a, 0 ≤ U i a ∧ U i a < 1) ∧ ∀ i j, U i = U j → i = j) :
    sensorCoords distributed U = .ok P ∧ (distributed = false → P = U) ∧ (∀ i a, 0 ≤ P i a ∧ P i a < 1) ∧
      g.Built ∧ Undirected g.W.dense ∧ (∀ i, g.W.dense i i = 0) ∧ (∀ i j, 0 ≤ g.W.dense i j ∧ g.W.dense i j ≤ 1) ∧
      (method = .average ∨ method = .maximum ∨ method = .fill → ∀ i, k ≤ (Finset.univ.filter fun j => g.W.dense i j ≠ 0).card) := by
  unfold sensor at h
  obtain ⟨X, hX, h⟩ := bindOk h
  obtain rfl := nnGraph_points h
  have hfacts : (∀ i a, 0 ≤ P i a ∧ P i a < 1) ∧ ∀ i j, P i = P j → i = j := by
    cases distributed with
    | false =>
      have : U = P := Except.ok.inj hX
      subst this
      exact hU
    | true =>
      simp only [if_true] at hU
      by_cases hsq : ∃ m, m * m = N
      · obtain ⟨m, hm⟩ := hsq
        have hs : N.sqrt = m := by rw [← hm, Nat.sqrt_eq]
        rcases Nat.eq_zero_or_pos m with rfl | hpos
        · simp only [mul_zero] at hm
          subst hm
          exact ⟨fun i => i.elim0, fun i => i.elim0⟩
        · rw [hs] at hU
          obtain ⟨P', e, -, -, a3, a4⟩ := (C95_sensor_cells (U := U) (P := P)).2 m hpos hm hU
          rw [hX] at e
          cases e
          exact ⟨a4, a3⟩
      · rw [(C95_sensor_cells (U := U) (P := P)).1 hsq] at hX
        cases hX
  obtain ⟨s1, s2, s3, s4, s5⟩ := C79_knn_structure h hp hnn hfacts.2 hσ
  refine ⟨hX, fun e => ?_, hfacts.1, s1, s2, s3, s4, s5⟩
  subst e
  exact (Except.ok.inj hX).symm

/-- **Distributed sensors, returns**: for a perfect square larger than `k`. -/
theorem C95_sensor_returns {k m : ℕ} (hk : 1 ≤ k) (hkN : k < N) (hN : m * m = N) {U : Fin N → Fin 2 → ℝ} (hU : ∀ i a, 0 ≤ U i a ∧ U i a < 1 / m)
    {sigma : Option ℝ} (hσ : sigma ≠ some 0) (epsilon : ℝ) {method : SymMethod} (hm : ∀ s, method ≠ .other s) {dist : DistType} {p : MinkP} (hp : dist.order = .ok p)
    {lt : LapType} (hlt : lt = .combinatorial ∨ lt = .normalized) :
    ∃ P, sensorCoords true U = .ok P ∧ ∀ nn, KnnSpec k (fun i j => minkowski p (P i) (P j)) nn →
      ∃ g, sensor k true U .knn sigma epsilon method dist nn lt = .ok (g, P) := by
  have hpos : 0 < m := by
    rcases Nat.eq_zero_or_pos m with rfl | h
    · omega
    · exact h
  obtain ⟨P, hP, -, -, hinj, -⟩ := (C95_sensor_cells (U := U) (P := U)).2 m hpos hN hU
  obtain ⟨Y, hY, hg⟩ := C79_returns hk hkN hinj false false hσ epsilon hm hp hlt
  have e : P = Y := Except.ok.inj hY
  subst e
  refine ⟨P, hP, fun nn hnn => ?_⟩
  obtain ⟨g, hg⟩ := hg nn hnn
  refine ⟨g, ?_⟩
  unfold sensor
  rw [hP]
  exact hg

/-! ### Sphere -/

/-- **Sphere**: all the points are at distance one from the origin, in the direction of the draws; the graph links each point to at least its ten nearest ones, and is
undirected without self-loop. -/
theorem C95_sphere {radius : ℝ} {sampling : Sampling} {Z P : Fin N → Fin d → ℝ} {sigma : Option ℝ} {epsilon : ℝ} {method : SymMethod}
    {dist : DistType} {nn : Fin N → List (Fin N)} {lt : LapType} {g : Graph N ℝ}
    (h : sphere radius sampling Z .knn sigma epsilon method dist nn lt = .ok (g, P)) {p : MinkP} (hp : dist.order = .ok p)
    (hnn : KnnSpec 10 (fun i j => minkowski p (P i) (P j)) nn) (hσ : ∀ s, sigma = some s → 0 < s)
    (hZ : ∀ i j, i ≠ j → ∀ c > 0, Z i ≠ fun a => c * Z j a) :
    sampling = .random ∧ (∀ i, ∑ a, P i a ^ 2 = 1) ∧ (∀ i, ∃ c > 0, ∀ a, Z i a = c * P i a) ∧ 10 < N ∧
      g.Built ∧ Undirected g.W.dense ∧ (∀ i, g.W.dense i i = 0) ∧ (∀ i j, 0 ≤ g.W.dense i j ∧ g.W.dense i j ≤ 1) ∧
      (method = .average ∨ method = .maximum ∨ method = .fill → ∀ i, 10 ≤ (Finset.univ.filter fun j => g.W.dense i j ≠ 0).card) := by
  unfold sphere at h
  obtain ⟨X, hX, h2⟩ := bindOk h
  clear h
  obtain rfl := nnGraph_points h2
  cases sampling with
  | other s => cases hX
  | random =>
  unfold spherePoints at hX
  simp only at hX
  split at hX
  · cases hX
  rename_i h0
  push Not at h0
  have hX := Except.ok.inj hX
  have hpos : ∀ i, 0 < √(∑ a, Z i a ^ 2) := fun i => lt_of_le_of_ne (Real.sqrt_nonneg _) (Ne.symm (h0 i))
  have hc : ∀ i a, Z i a = √(∑ a, Z i a ^ 2) * P i a := fun i a => by
    rw [← hX]
    show _ = √(∑ a, Z i a ^ 2) * (Z i a / √(∑ a, Z i a ^ 2))
    rw [mul_div_cancel₀ _ (h0 i)]
  have hinj : ∀ i j, P i = P j → i = j := fun i j e => by
    by_contra hij
    refine hZ i j hij (√(∑ a, Z i a ^ 2) / √(∑ a, Z j a ^ 2)) (div_pos (hpos i) (hpos j)) ?_
    funext a
    have := hpos j
    have e1 := hc i a
    have e2 := hc j a
    rw [e] at e1
    conv_lhs => rw [e1]
    conv_rhs => rw [e2]
    field_simp
  obtain ⟨s1, s2, s3, s4, s5⟩ := C79_knn_structure h2 hp hnn hinj hσ
  refine ⟨rfl, fun i => ?_, fun i => ⟨_, hpos i, hc i⟩, ?_, s1, s2, s3, s4, s5⟩
  · have hs : 0 ≤ ∑ a, Z i a ^ 2 := Finset.sum_nonneg fun _ _ => sq_nonneg _
    rw [← hX]
    simp only [div_pow, ← Finset.sum_div]
    rw [Real.sq_sqrt hs, div_self]
    intro e
    exact h0 i (by rw [e, Real.sqrt_zero])
  · by_contra hN
    rw [(C79_errors P .knn false false 10 sigma epsilon method dist nn lt).1 (by omega)] at h2
    cases h2

/-- **Sphere, errors**: an unknown sampling; ten points or fewer. -/
theorem C95_sphere_errors (radius : ℝ) (Z : Fin N → Fin d → ℝ) (type : NNType) (sigma : Option ℝ) (epsilon : ℝ) (method : SymMethod)
    (dist : DistType) (nn : Fin N → List (Fin N)) (lt : LapType) :
    (∀ s, sphere radius (.other s) Z type sigma epsilon method dist nn lt = .error .valueError) ∧
    ((∀ i, Z i ≠ 0) → N ≤ 10 → sphere radius .random Z type sigma epsilon method dist nn lt = .error .valueError) := by
  refine ⟨fun s => rfl, fun hZ hN => ?_⟩
  unfold sphere spherePoints
  simp only
  rw [if_neg]
  · exact (C79_errors _ type false false 10 sigma epsilon method dist nn lt).1 hN
  · rintro ⟨i, hi⟩
    apply hZ i
    rw [Real.sqrt_eq_zero (Finset.sum_nonneg fun _ _ => sq_nonneg _)] at hi
    funext a
    exact pow_eq_zero_iff (two_ne_zero) |>.1 ((Finset.sum_eq_zero_iff_of_nonneg fun _ _ => sq_nonneg _).1 hi a (Finset.mem_univ a))

/-- **Violated: `radius` is the radius of the sphere.**  The points are at distance one from the origin whatever `radius`. -/
theorem C95_sphere_radius_violated {radius : ℝ} (hr : 0 ≤ radius) (hr1 : radius ≠ 1) {sampling : Sampling} {Z P : Fin N → Fin d → ℝ} {type : NNType}
    {sigma : Option ℝ} {epsilon : ℝ} {method : SymMethod} {dist : DistType} {nn : Fin N → List (Fin N)} {lt : LapType} {g : Graph N ℝ}
    (h : sphere radius sampling Z type sigma epsilon method dist nn lt = .ok (g, P)) : 10 < N ∧ ∀ i, √(∑ a, P i a ^ 2) ≠ radius := by
  unfold sphere at h
  obtain ⟨X, hX, h2⟩ := bindOk h
  clear h
  obtain rfl := nnGraph_points h2
  cases sampling with
  | other s => cases hX
  | random =>
  unfold spherePoints at hX
  simp only at hX
  split at hX
  · cases hX
  rename_i h0
  push Not at h0
  refine ⟨?_, fun i e => hr1 ?_⟩
  · by_contra hN
    rw [(C79_errors P type false false 10 sigma epsilon method dist nn lt).1 (by omega)] at h2
    cases h2
  · rw [← e, ← Except.ok.inj hX]
    have hs : 0 ≤ ∑ a, Z i a ^ 2 := Finset.sum_nonneg fun _ _ => sq_nonneg _
    simp only [div_pow, ← Finset.sum_div]
    rw [Real.sq_sqrt hs, div_self, Real.sqrt_one]
    intro e
    exact h0 i (by rw [e, Real.sqrt_zero])

/-! ### Cube -/

/-- The coordinate that is constant on face `f` of the unit cube, and its value. -/
def faceAxis : Fin 6 → Fin 3 × ℝ := ![(0, 0), (0, 1), (1, 0), (1, 1), (2, 0), (2, 1)]

/-- Where the generator is read. -/
def drawIdx (n : ℕ) (f : Fin 6) (i : ℕ) (a : Fin 3) : ℕ :=
  ![![0, 2 * i, 2 * i + 1], ![0, 2 * n + 2 * i, 2 * n + 2 * i + 1], ![4 * n + i, 0, 5 * n + i], ![6 * n + i, 0, 7 * n + i],
    ![8 * n + 2 * i, 8 * n + 2 * i + 1, 0], ![10 * n + 2 * i, 10 * n + 2 * i + 1, 0]] f a

theorem drawIdx_bounds {n i : ℕ} (f : Fin 6) {a : Fin 3} (hi : i < n) (h : a ≠ (faceAxis f).1) :
    2 * n * f.val ≤ drawIdx n f i a ∧ drawIdx n f i a < 2 * n * (f.val + 1) := by
  fin_cases f <;> fin_cases a <;> simp [drawIdx, faceAxis] at h ⊢ <;> omega

/-- **Cube, points**: in two dimensions the points are drawn in the unit square; in three dimensions there are `n = nb_pts // 6` points on each of the six faces of the unit
cube, the two other coordinates being draws each used once. -/
theorem C95_cube_points (nbPts : ℕ) (u : ℕ → ℝ) (hu : ∀ k, 0 ≤ u k ∧ u k < 1) :
    (∃ P : Fin nbPts → Fin 2 → ℝ, cubePoints nbPts 2 .random u = .ok ⟨nbPts, P⟩ ∧ (∀ i a, 0 ≤ P i a ∧ P i a < 1) ∧
      ∃ ι : Fin nbPts × Fin 2 → ℕ, ι.Injective ∧ ∀ i a, P i a = u (ι (i, a))) ∧
    ∃ P : Fin (nbPts / 6 * 6) → Fin 3 → ℝ, cubePoints nbPts 3 .random u = .ok ⟨nbPts / 6 * 6, P⟩ ∧ (∀ i a, 0 ≤ P i a ∧ P i a ≤ 1) ∧
      ∃ e : Fin 6 × Fin (nbPts / 6) ≃ Fin (nbPts / 6 * 6), (∀ f i, P (e (f, i)) (faceAxis f).1 = (faceAxis f).2) ∧
        ∃ ι : (Fin 6 × Fin (nbPts / 6)) × Fin 3 → ℕ, (∀ f i a f' i' a', a ≠ (faceAxis f).1 → a' ≠ (faceAxis f').1 →
            ι ((f, i), a) = ι ((f', i'), a') → f = f' ∧ i = i' ∧ a = a') ∧
          ∀ f i a, a ≠ (faceAxis f).1 → P (e (f, i)) a = u (ι ((f, i), a)) := by
  constructor
  · refine ⟨fun i a => u (i.val * 2 + a.val), rfl, fun i a => hu _, fun q => q.1.val * 2 + q.2.val, ?_, fun i a => rfl⟩
    rintro ⟨i, a⟩ ⟨j, b⟩ h
    simp only at h
    have := a.isLt
    have := b.isLt
    have h1 : i.val = j.val := by omega
    have h2 : a.val = b.val := by omega
    rw [Fin.ext h1, Fin.ext h2]
  · obtain ⟨n, hn⟩ : ∃ n, n = nbPts / 6 := ⟨_, rfl⟩
    rw [← hn]
    let e : Fin 6 × Fin n ≃ Fin (n * 6) := finProdFinEquiv.trans (finCongr (mul_comm 6 n))
    have he : ∀ f i, (e (f, i)).val = i.val + n * f.val := fun f i => rfl
    have hdiv : ∀ f i, (e (f, i)).val / n = f.val := fun f i => by
      have hn : 0 < n := Fin.pos i
      rw [he, Nat.add_mul_div_left _ _ hn, Nat.div_eq_of_lt i.isLt, zero_add]
    have hmod : ∀ f i, (e (f, i)).val % n = i.val := fun f i => by
      rw [he, Nat.add_mul_mod_self_left, Nat.mod_eq_of_lt i.isLt]
    let ι : (Fin 6 × Fin n) × Fin 3 → ℕ := fun q => drawIdx n q.1.1 q.1.2.val q.2
    let P : Fin (n * 6) → Fin 3 → ℝ := fun i a => cubeFace n u (i.val / n) (i.val % n) (Fin.ofNat 3 a.val)
    have hP : ∀ f i a, P (e (f, i)) a = cubeFace n u f.val i.val a := fun f i a => by
      show cubeFace n u ((e (f, i)).val / n) ((e (f, i)).val % n) (Fin.ofNat 3 a.val) = _
      rw [hdiv, hmod]
      congr 1
      exact Fin.ext (Nat.mod_eq_of_lt a.isLt)
    refine ⟨P, by subst hn; rfl, fun j a => ?_, e, fun f i => ?_, ι, fun f i a f' i' a' h h' heq => ?_, fun f i a h => ?_⟩
    · obtain ⟨⟨f, i⟩, rfl⟩ := e.surjective j
      rw [hP]
      have hu' : ∀ k, 0 ≤ u k ∧ u k ≤ 1 := fun k => ⟨(hu k).1, (hu k).2.le⟩
      fin_cases f <;> fin_cases a <;> simp [cubeFace, hu']
    · rw [hP]
      fin_cases f <;> simp [cubeFace, faceAxis]
    · have hf : f = f' := by
        have b1 := drawIdx_bounds f i.isLt h
        have b2 := drawIdx_bounds f' i'.isLt h'
        have heq : drawIdx n f i.val a = drawIdx n f' i'.val a' := heq
        rw [heq] at b1
        have c1 := lt_of_le_of_lt b1.1 b2.2
        have c2 := lt_of_le_of_lt b2.1 b1.2
        have c1 := lt_of_mul_lt_mul_left c1 (Nat.zero_le _)
        have c2 := lt_of_mul_lt_mul_left c2 (Nat.zero_le _)
        exact Fin.ext (by omega)
      subst hf
      have heq : drawIdx n f i.val a = drawIdx n f i'.val a' := heq
      have := i.isLt
      have := i'.isLt
      refine ⟨rfl, ?_⟩
      suffices i.val = i'.val ∧ a = a' from ⟨Fin.ext this.1, this.2⟩
      fin_cases f <;> fin_cases a <;> fin_cases a' <;> simp [drawIdx, faceAxis] at h h' heq ⊢ <;> omega
    · rw [hP]
      show _ = u (drawIdx n f i.val a)
      fin_cases f <;> fin_cases a <;> simp [cubeFace, faceAxis, drawIdx] at h ⊢

/-- **Cube**: at most `nb_pts` vertices, exactly `6 (nb_pts // 6)` in three dimensions; undirected, no self-loop, at least ten neighbors each. -/
theorem C95_cube {radius : ℝ} {nbPts nbDim : ℕ} {sampling : Sampling} {u : ℕ → ℝ} {sigma : Option ℝ} {epsilon : ℝ} {method : SymMethod}
    {dist : DistType} {nn : (N : ℕ) → Fin N → List (Fin N)} {lt : LapType} {g : Graph N ℝ} {P : Fin N → Fin nbDim → ℝ}
    (h : cube radius nbPts nbDim sampling u .knn sigma epsilon method dist nn lt = .ok ⟨N, g, P⟩) {p : MinkP} (hp : dist.order = .ok p)
    (hnn : KnnSpec 10 (fun i j => minkowski p (P i) (P j)) (nn N)) (hσ : ∀ s, sigma = some s → 0 < s) (hP : ∀ i j, P i = P j → i = j) :
    sampling = .random ∧ (nbDim = 2 ∧ N = nbPts ∨ nbDim = 3 ∧ N = nbPts / 6 * 6) ∧ cubePoints nbPts nbDim sampling u = .ok ⟨N, P⟩ ∧ 10 < N ∧
      g.Built ∧ Undirected g.W.dense ∧ (∀ i, g.W.dense i i = 0) ∧ (∀ i j, 0 ≤ g.W.dense i j ∧ g.W.dense i j ≤ 1) ∧
      (method = .average ∨ method = .maximum ∨ method = .fill → ∀ i, 10 ≤ (Finset.univ.filter fun j => g.W.dense i j ≠ 0).card) := by
  unfold cube at h
  obtain ⟨⟨M, X⟩, hX, h2⟩ := bindOk h
  clear h
  obtain ⟨⟨g', P'⟩, h3, h4⟩ := bindOk h2
  clear h2
  obtain ⟨rfl, h4⟩ := Sigma.mk.inj (Except.ok.inj h4)
  obtain ⟨rfl, rfl⟩ := Prod.mk.inj (eq_of_heq h4)
  obtain rfl := nnGraph_points h3
  obtain ⟨s1, s2, s3, s4, s5⟩ := C79_knn_structure h3 hp hnn hP hσ
  have hN : 10 < M := by
    by_contra hN
    rw [(C79_errors P' .knn false false 10 sigma epsilon method dist (nn M) lt).1 (by omega)] at h3
    cases h3
  have hX' := hX
  unfold cubePoints at hX
  split at hX
  · cases hX
  cases sampling with
  | other s => cases hX
  | random =>
  refine ⟨rfl, ?_, hX', hN, s1, s2, s3, s4, s5⟩
  simp only at hX
  split at hX
  · rename_i h2
    exact .inl ⟨h2, ((Sigma.mk.inj (Except.ok.inj hX)).1).symm⟩
  · split at hX
    · rename_i h3
      exact .inr ⟨h3, ((Sigma.mk.inj (Except.ok.inj hX)).1).symm⟩
    · cases hX

/-- **Cube, errors**: more than three dimensions (whatever the sampling), an unknown sampling, fewer than two dimensions, too few points. -/
theorem C95_cube_errors (radius : ℝ) (nbPts nbDim : ℕ) (u : ℕ → ℝ) (type : NNType) (sigma : Option ℝ) (epsilon : ℝ) (method : SymMethod)
    (dist : DistType) (nn : (N : ℕ) → Fin N → List (Fin N)) (lt : LapType) :
    (3 < nbDim → ∀ sampling, cube radius nbPts nbDim sampling u type sigma epsilon method dist nn lt = .error .notImplementedError) ∧
    (nbDim ≤ 3 → ∀ s, cube radius nbPts nbDim (.other s) u type sigma epsilon method dist nn lt = .error .valueError) ∧
    (nbDim < 2 → cube radius nbPts nbDim .random u type sigma epsilon method dist nn lt = .error .nameError) ∧
    (nbDim = 2 → nbPts ≤ 10 → cube radius nbPts nbDim .random u type sigma epsilon method dist nn lt = .error .valueError) ∧
    (nbDim = 3 → nbPts ≤ 11 → cube radius nbPts nbDim .random u type sigma epsilon method dist nn lt = .error .valueError) := by
  refine ⟨fun h s => ?_, fun h s => ?_, fun h => ?_, fun h hn => ?_, fun h hn => ?_⟩
  · unfold cube cubePoints
    rw [if_pos h]
    rfl
  · unfold cube cubePoints
    rw [if_neg (by omega)]
    rfl
  · unfold cube cubePoints
    simp only
    rw [if_neg (by omega), if_neg (by omega), if_neg (by omega)]
    rfl
  · subst h
    have := (C79_errors (fun (i : Fin nbPts) (a : Fin 2) => u (i.val * 2 + a.val)) type false false 10 sigma epsilon method dist (nn nbPts) lt).1 hn
    unfold cube
    show (nnGraph (fun (i : Fin nbPts) (a : Fin 2) => u (i.val * 2 + a.val)) type false false 10 sigma epsilon method dist (nn nbPts) lt >>= _) = _
    rw [this]
    rfl
  · subst h
    have := (C79_errors (fun (i : Fin (nbPts / 6 * 6)) (a : Fin 3) => cubeFace (nbPts / 6) u (i.val / (nbPts / 6)) (i.val % (nbPts / 6)) (Fin.ofNat 3 a.val))
      type false false 10 sigma epsilon method dist (nn (nbPts / 6 * 6)) lt).1 (by omega)
    unfold cube
    show (nnGraph (fun (i : Fin (nbPts / 6 * 6)) (a : Fin 3) => cubeFace (nbPts / 6) u (i.val / (nbPts / 6)) (i.val % (nbPts / 6)) (Fin.ofNat 3 a.val))
      type false false 10 sigma epsilon method dist (nn (nbPts / 6 * 6)) lt >>= _) = _
    rw [this]
    rfl

/-! ### TwoMoons -/

/-- **TwoMoons, points and labels**: the first `N // 2` vertices have label 0 and are on the lower half of the circle of radius 1 around `(1/2, (1 - distance)/2)`, the others
have label 1 and are on the upper half of the circle of radius 1 around `(-1/2, (distance - 1)/2)`, up to a perturbation of length `sigmad |r|`. -/
theorem C95_twomoons {S : Type} {moon : MoonType} {sigmag : ℝ} (hg : 0 < sigmag) {sigmad distance : ℝ} {draw : S → ℕ → MoonDraws} {seed : Option S} {fresh : S × S}
    {epsilon : ℝ} {method : SymMethod} {dist : DistType} {nn : Fin N → List (Fin N)} {lt : LapType} {g : Graph N ℝ} {P : Fin N → Fin 2 → ℝ} {labels : Fin N → ℝ}
    (h : twoMoons moon sigmag N sigmad distance draw seed fresh .knn epsilon method dist nn lt = .ok (g, P, labels)) {p : MinkP} (hp : dist.order = .ok p)
    (hnn : KnnSpec 5 (fun i j => minkowski p (P i) (P j)) nn) (hP : ∀ i j, P i = P j → i = j)
    (hu : ∀ s n i, 0 ≤ (draw s n).phi i ∧ (draw s n).phi i < 1) :
    moon = .synthesized ∧ 5 < N ∧ (∀ i, labels i = if i.val < N / 2 then 0 else 1) ∧
      (∀ i, ∃ φ r α : ℝ, 0 ≤ φ ∧ φ < Real.pi ∧ (∃ s n k, r = (draw s n).rb k) ∧
        if labels i = 0 then
          P i 0 = 1 / 2 + Real.cos φ + sigmad * r * Real.cos α ∧ P i 1 = (1 - distance) / 2 - Real.sin φ + sigmad * r * Real.sin α
        else P i 0 = -1 / 2 + Real.cos φ + sigmad * r * Real.cos α ∧ P i 1 = (distance - 1) / 2 + Real.sin φ + sigmad * r * Real.sin α) ∧
      g.Built ∧ Undirected g.W.dense ∧ (∀ i, g.W.dense i i = 0) ∧ (∀ i j, 0 ≤ g.W.dense i j ∧ g.W.dense i j ≤ 1) ∧
      (method = .average ∨ method = .maximum ∨ method = .fill → ∀ i, 5 ≤ (Finset.univ.filter fun j => g.W.dense i j ≠ 0).card) := by
  cases moon with
  | standard => cases h
  | other s => cases h
  | synthesized =>
  obtain ⟨⟨g', P'⟩, h3, h4⟩ := bindOk h
  clear h
  have h4 : (g', P', (moonPoints draw seed fresh N sigmad distance).2) = (g, P, labels) := Except.ok.inj h4
  obtain ⟨rfl, h5⟩ := Prod.mk.inj h4
  obtain ⟨rfl, rfl⟩ := Prod.mk.inj h5
  have hY := nnGraph_points h3
  obtain ⟨s1, s2, s3, s4, s5⟩ := C79_knn_structure h3 hp hnn (fun i j e => hP i j (by rw [hY]; exact e)) (fun s e => by cases e; exact hg)
  have hN : 5 < N := by
    by_contra hN
    rw [(C79_errors _ .knn false false 5 _ epsilon method dist nn lt).1 (by omega)] at h3
    cases h3
  refine ⟨rfl, hN, fun i => rfl, fun i => ?_, s1, s2, s3, s4, s5⟩
  have hpi := Real.pi_pos
  have key : ∀ s n k, 0 ≤ (draw s n).phi k * Real.pi ∧ (draw s n).phi k * Real.pi < Real.pi := fun s n k => by
    obtain ⟨a, b⟩ := hu s n k
    exact ⟨by positivity, by nlinarith⟩
  rw [hY]
  show ∃ φ r α : ℝ, 0 ≤ φ ∧ φ < Real.pi ∧ (∃ s n k, r = (draw s n).rb k) ∧ if (if i.val < N / 2 then (0 : ℝ) else 1) = 0 then _ else _
  by_cases hi : i.val < N / 2
  · refine ⟨(draw (seed.getD fresh.1) (N / 2)).phi i.val * Real.pi, (draw (seed.getD fresh.1) (N / 2)).rb i.val, (draw (seed.getD fresh.1) (N / 2)).ab i.val * 2 * Real.pi, (key _ _ _).1, (key _ _ _).2, ⟨_, _, _, rfl⟩, ?_⟩
    rw [if_pos (by rw [if_pos hi])]
    have e : ∀ a, (moonPoints draw seed fresh N sigmad distance).1 i a = arcMoon (draw (seed.getD fresh.1) (N / 2)) sigmad distance true i.val a :=
      fun a => by rw [show (moonPoints draw seed fresh N sigmad distance).1 i = _ from if_pos hi]
    refine ⟨(e 0).trans ?_, (e 1).trans ?_⟩ <;> unfold arcMoon <;>
      simp only [if_true, Matrix.cons_val_zero, Matrix.cons_val_one] <;> ring
  · refine ⟨(draw (seed.getD fresh.2) (N - N / 2)).phi (i.val - N / 2) * Real.pi, (draw (seed.getD fresh.2) (N - N / 2)).rb (i.val - N / 2), (draw (seed.getD fresh.2) (N - N / 2)).ab (i.val - N / 2) * 2 * Real.pi, (key _ _ _).1, (key _ _ _).2, ⟨_, _, _, rfl⟩, ?_⟩
    rw [if_neg (by rw [if_neg hi]; norm_num)]
    have e : ∀ a, (moonPoints draw seed fresh N sigmad distance).1 i a = arcMoon (draw (seed.getD fresh.2) (N - N / 2)) sigmad distance false (i.val - N / 2) a :=
      fun a => by rw [show (moonPoints draw seed fresh N sigmad distance).1 i = _ from if_neg hi]
    refine ⟨(e 0).trans ?_, (e 1).trans ?_⟩ <;> unfold arcMoon <;>
      simp only [Bool.false_eq_true, if_false, Matrix.cons_val_zero, Matrix.cons_val_one] <;> ring

/-- **TwoMoons, errors**: an unknown type of moons, five vertices or fewer. -/
theorem C95_twomoons_errors {S : Type} (sigmag sigmad distance : ℝ) (draw : S → ℕ → MoonDraws) (seed : Option S) (fresh : S × S)
    (type : NNType) (epsilon : ℝ) (method : SymMethod) (dist : DistType) (nn : Fin N → List (Fin N)) (lt : LapType) :
    (∀ s, twoMoons (.other s) sigmag N sigmad distance draw seed fresh type epsilon method dist nn lt = .error .valueError) ∧
    (N ≤ 5 → twoMoons .synthesized sigmag N sigmad distance draw seed fresh type epsilon method dist nn lt = .error .valueError) := by
  refine ⟨fun s => rfl, fun hN => ?_⟩
  show (nnGraph _ type false false 5 _ epsilon method dist nn lt >>= _) = _
  rw [(C79_errors _ type false false 5 _ epsilon method dist nn lt).1 hN]
  rfl

/-- **Violated: the two moons are random independently.**  With a seed and an even number of vertices, both moons use the same draws: vertex `N/2 + i` is vertex `i` translated
by -1 along the first axis, up to the symmetric of the arc along the second. -/
theorem C95_twomoons_copies_violated {S : Type} {sigmag sigmad distance : ℝ} {draw : S → ℕ → MoonDraws} {seed : S} {fresh : S × S} {m : ℕ} {type : NNType}
    {epsilon : ℝ} {method : SymMethod} {dist : DistType} {nn : Fin (2 * m) → List (Fin (2 * m))} {lt : LapType} {g : Graph (2 * m) ℝ} {P : Fin (2 * m) → Fin 2 → ℝ}
    {labels : Fin (2 * m) → ℝ}
    (h : twoMoons .synthesized sigmag (2 * m) sigmad distance draw (some seed) fresh type epsilon method dist nn lt = .ok (g, P, labels)) :
    ∀ i j : Fin (2 * m), j.val = m + i.val → P j 0 = P i 0 - 1 ∧
      (sigmad = 0 → P j 1 = -P i 1) := by
  obtain ⟨⟨g', P'⟩, h3, h4⟩ := bindOk h
  clear h
  have h4 : (g', P', (moonPoints draw (some seed) fresh (2 * m) sigmad distance).2) = (g, P, labels) := Except.ok.inj h4
  obtain ⟨rfl, h5⟩ := Prod.mk.inj h4
  obtain ⟨rfl, rfl⟩ := Prod.mk.inj h5
  have hY := nnGraph_points h3
  intro i j hij
  have hm : 2 * m / 2 = m := by omega
  have hm2 : 2 * m - m = m := by omega
  have hj := j.isLt
  have e1 : P' i = arcMoon (draw seed m) sigmad distance true i.val := by
    rw [hY]
    simp only [hm, Option.getD_some]
    rw [if_pos (by omega)]
  have e2 : P' j = arcMoon (draw seed m) sigmad distance false i.val := by
    rw [hY]
    simp only [hm, hm2, Option.getD_some]
    rw [if_neg (by omega)]
    congr 1
    omega
  rw [e1, e2]
  unfold arcMoon
  simp only [if_true, Bool.false_eq_true, if_false, Matrix.cons_val_zero, Matrix.cons_val_one]
  constructor
  · ring
  · rintro rfl
    ring

/-! ### The hypotheses are met -/

/-- A distributed network of four sensors. -/
example : ∃ (nn : Fin 4 → List (Fin 4)) (g : Graph 4 ℝ) (P : Fin 4 → Fin 2 → ℝ),
    KnnSpec 2 (fun i j => minkowski (.fin 2) (P i) (P j)) nn ∧ sensor 2 true (fun _ _ => 1 / 8) .knn none 0 .average .euclidean nn .combinatorial = .ok (g, P) := by
  obtain ⟨P, -, h⟩ := C95_sensor_returns (N := 4) (k := 2) (m := 2) (by norm_num) (by norm_num) (by norm_num) (U := fun _ _ => 1 / 8) (by intros; norm_num) (sigma := none)
    (by simp) 0 (method := .average) (by simp) (dist := .euclidean) rfl (lt := .combinatorial) (.inl rfl)
  obtain ⟨nn, hnn⟩ := exists_knn (k := 2) (by norm_num) (fun i j : Fin 4 => minkowski (.fin 2) (P i) (P j))
  obtain ⟨g, hg⟩ := h nn hnn
  exact ⟨nn, g, P, hnn, hg⟩

/-- A sphere in two dimensions with twelve points, with the ten nearest neighbours of each. -/
example : ∃ (nn : Fin 12 → List (Fin 12)) (g : Graph 12 ℝ) (P : Fin 12 → Fin 2 → ℝ),
    KnnSpec 10 (fun i j => minkowski (.fin 2) (P i) (P j)) nn ∧
      sphere 3 .random (fun i => ![1, (i.val : ℝ)]) .knn none 0 .average .euclidean nn .combinatorial = .ok (g, P) := by
  let Z : Fin 12 → Fin 2 → ℝ := fun i => ![1, (i.val : ℝ)]
  have hpos : ∀ i, 0 < √(∑ a, Z i a ^ 2) := fun i => by
    apply Real.sqrt_pos.2
    simp only [Z, Fin.sum_univ_two, Matrix.cons_val_zero, Matrix.cons_val_one]
    positivity
  let P : Fin 12 → Fin 2 → ℝ := fun i a => Z i a / √(∑ a, Z i a ^ 2)
  have hP : spherePoints .random Z = .ok P := if_neg (by rintro ⟨i, hi⟩; exact (hpos i).ne' hi)
  have hinj : ∀ i j, P i = P j → i = j := fun i j e => by
    have e0 : 1 / √(∑ a, Z i a ^ 2) = 1 / √(∑ a, Z j a ^ 2) := congrFun e 0
    have e1 : (i.val : ℝ) / √(∑ a, Z i a ^ 2) = (j.val : ℝ) / √(∑ a, Z j a ^ 2) := congrFun e 1
    rw [one_div, one_div, _root_.inv_inj] at e0
    rw [e0, div_left_inj' (hpos j).ne'] at e1
    exact Fin.ext (by exact_mod_cast e1)
  obtain ⟨Y, hY, hg⟩ := C79_returns (k := 10) (by norm_num) (by norm_num) hinj false false (sigma := none) (by simp) 0 (method := .average) (by simp) (dist := .euclidean) rfl
    (lt := .combinatorial) (.inl rfl)
  have e : P = Y := Except.ok.inj hY
  subst e
  obtain ⟨nn, hnn⟩ := exists_knn (k := 10) (by norm_num) (fun i j : Fin 12 => minkowski (.fin 2) (P i) (P j))
  obtain ⟨g, hg⟩ := hg nn hnn
  refine ⟨nn, g, P, hnn, ?_⟩
  show (spherePoints .random Z >>= _) = _
  rw [hP]
  exact hg

/-- A square with eleven points. -/
example : ∃ (nn : (N : ℕ) → Fin N → List (Fin N)) (g : Graph 11 ℝ) (P : Fin 11 → Fin 2 → ℝ), (∀ i j, P i = P j → i = j) ∧
    KnnSpec 10 (fun i j => minkowski (.fin 2) (P i) (P j)) (nn 11) ∧
      cube 1 11 2 .random (fun k => 1 / (k + 2)) .knn none 0 .average .euclidean nn .combinatorial = .ok ⟨11, g, P⟩ := by
  let P : Fin 11 → Fin 2 → ℝ := fun i a => 1 / ((i.val * 2 + a.val : ℕ) + 2)
  have hinj : ∀ i j, P i = P j → i = j := fun i j e => by
    have e0 : (1 : ℝ) / ((i.val * 2 + 0 : ℕ) + 2) = 1 / ((j.val * 2 + 0 : ℕ) + 2) := congrFun e 0
    rw [one_div, one_div, _root_.inv_inj] at e0
    have e1 : i.val * 2 + 0 + 2 = j.val * 2 + 0 + 2 := by exact_mod_cast e0
    exact Fin.ext (by omega)
  obtain ⟨Y, hY, hg⟩ := C79_returns (k := 10) (by norm_num) (by norm_num) hinj false false (sigma := none) (by simp) 0 (method := .average) (by simp) (dist := .euclidean) rfl
    (lt := .combinatorial) (.inl rfl)
  have e : P = Y := Except.ok.inj hY
  subst e
  obtain ⟨nn, hnn⟩ := exists_knn (k := 10) (by norm_num) (fun i j : Fin 11 => minkowski (.fin 2) (P i) (P j))
  obtain ⟨g, hg⟩ := hg nn hnn
  refine ⟨fun N i => if h : N = 11 then h ▸ nn (h ▸ i) else [], g, P, hinj, hnn, ?_⟩
  show (nnGraph P .knn false false 10 none 0 .average .euclidean nn .combinatorial >>= _) = _
  rw [hg]
  rfl

/-- Two moons of four points. -/
example : ∃ (nn : Fin 8 → List (Fin 8)) (draw : Unit → ℕ → MoonDraws) (g : Graph 8 ℝ) (P : Fin 8 → Fin 2 → ℝ) (labels : Fin 8 → ℝ), (∀ i j, P i = P j → i = j) ∧
    (∀ s n i, 0 ≤ (draw s n).phi i ∧ (draw s n).phi i < 1) ∧ KnnSpec 5 (fun i j => minkowski (.fin 2) (P i) (P j)) nn ∧
      twoMoons .synthesized 1 8 (1 / 10) 1 draw (some ()) ((), ()) .knn 0 .average .euclidean nn .combinatorial = .ok (g, P, labels) := by
  let draw : Unit → ℕ → MoonDraws := fun _ _ => ⟨fun _ => 0, fun i => i, fun _ => 0⟩
  let X := (moonPoints draw (some ()) ((), ()) 8 (1 / 10) 1).1
  have hinj : ∀ i j, X i = X j → i = j := fun i j e => by
    have e0 := congrFun e 0
    have hX : ∀ i : Fin 8, X i 0 = if i.val < 4 then (3 / 2 : ℝ) + i.val / 10 else 1 / 2 + (i.val - 4 : ℕ) / 10 := fun i => by
      show (if i.val < 4 then arcMoon _ (1 / 10) 1 true i.val else arcMoon _ (1 / 10) 1 false (i.val - 4)) 0 = _
      by_cases h : i.val < 4
      · rw [if_pos h, if_pos h]
        simp [arcMoon, draw]
        ring
      · rw [if_neg h, if_neg h]
        simp [arcMoon, draw]
        ring
    rw [hX, hX] at e0
    fin_cases i <;> fin_cases j <;> norm_num at e0 <;> rfl
  obtain ⟨Y, hY, hg⟩ := C79_returns (k := 5) (by norm_num) (by norm_num) hinj false false (sigma := some 1) (by simp) 0 (method := .average) (by simp) (dist := .euclidean) rfl
    (lt := .combinatorial) (.inl rfl)
  have e : X = Y := Except.ok.inj hY
  obtain ⟨nn, hnn⟩ := exists_knn (k := 5) (by norm_num) (fun i j : Fin 8 => minkowski (.fin 2) (X i) (X j))
  obtain ⟨g, hg⟩ := hg nn (e ▸ hnn)
  refine ⟨nn, draw, g, X, (moonPoints draw (some ()) ((), ()) 8 (1 / 10) 1).2, hinj, fun s n i => ⟨le_rfl, zero_lt_one⟩, hnn, ?_⟩
  show (nnGraph X .knn false false 5 (some 1) 0 .average .euclidean nn .combinatorial >>= _) = _
  rw [hg, ← e]
  rfl

end PyGSP.Gen
