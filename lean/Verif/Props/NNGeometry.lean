import Verif.Props.NNSearch

/-!
# C140: what the graph of NNGraph depends on
-/

namespace PyGSP

open Matrix Spec Gen

variable {N d d' : ℕ}

namespace Gen

theorem points_false (center : Bool) (X : Fin N → Fin d → ℝ) : ∃ Y, nnPoints center false X = .ok Y ∧
    ∀ p : MinkP, p.Valid → ∀ i j, minkowski p (Y i) (Y j) = minkowski p (X i) (X j) := by
  refine ⟨if center then nnCenter X else X, by simp [nnPoints], fun p hp i j => ?_⟩
  cases center
  · simp
  · have h := mink_affine p hp zero_le_one (fun a => (∑ l, X l a) / N) (X i) (X j)
    simp only [one_mul] at h
    simp only [if_true]
    exact h

/-- the graph of `NNGraph`, from the positions -/
theorem graph_only {X Y : Fin N → Fin d → ℝ} {center rescale : Bool} (type : NNType) (k : ℕ) (sigma : Option ℝ) (epsilon : ℝ) (method : SymMethod) (dist : DistType)
    (nn : Fin N → List (Fin N)) (lt : LapType) (hY : nnPoints center rescale X = .ok Y) :
    (nnGraph X type center rescale k sigma epsilon method dist nn lt).map Prod.fst =
      if N ≤ k then .error .valueError
      else (match type with
        | .knn => dist.order >>= fun p => nnKnn k sigma (fun i j => minkowski p (Y i) (Y j)) nn
        | .radius => dist.order >>= fun p => nnRadius epsilon sigma (fun i j => minkowski p (Y i) (Y j))
        | .other _ => .error .valueError) >>= fun W => symmetrize true W method >>= fun S => Graph.ofCsr (Sp.ofDense S) lt := by
  unfold nnGraph
  by_cases hk : N ≤ k
  · rw [if_pos hk, if_pos hk]; rfl
  rw [if_neg hk, if_neg hk, hY]
  cases type with
  | other s => rfl
  | knn =>
    cases dist.order with
    | error e => rfl
    | ok p =>
      simp only [bind, Except.bind]
      cases nnKnn k sigma (fun i j => minkowski p (Y i) (Y j)) nn with
      | error e => rfl
      | ok W =>
        dsimp only
        cases symmetrize true W method with
        | error e => rfl
        | ok S =>
          dsimp only
          cases Graph.ofCsr (Sp.ofDense S) lt <;> rfl
  | radius =>
    cases dist.order with
    | error e => rfl
    | ok p =>
      simp only [bind, Except.bind]
      cases nnRadius epsilon sigma (fun i j => minkowski p (Y i) (Y j)) with
      | error e => rfl
      | ok W =>
        dsimp only
        cases symmetrize true W method with
        | error e => rfl
        | ok S =>
          dsimp only
          cases Graph.ofCsr (Sp.ofDense S) lt <;> rfl

end Gen

/-- **C140** With `rescale=False` the graph (or the error) depends on the points through their distances only: not on the dimension, and not on `center`. -/
theorem C140_distances_only {X : Fin N → Fin d → ℝ} {X' : Fin N → Fin d' → ℝ} {dist : DistType}
    (h : ∀ p, dist.order = .ok p → ∀ i j, minkowski p (X' i) (X' j) = minkowski p (X i) (X j)) (type : NNType) (center center' : Bool) (k : ℕ) (sigma : Option ℝ) (epsilon : ℝ)
    (method : SymMethod) (nn : Fin N → List (Fin N)) (lt : LapType) :
    (nnGraph X' type center' false k sigma epsilon method dist nn lt).map Prod.fst = (nnGraph X type center false k sigma epsilon method dist nn lt).map Prod.fst := by
  obtain ⟨Y, hY, hd⟩ := points_false center X
  obtain ⟨Y', hY', hd'⟩ := points_false center' X'
  rw [graph_only type k sigma epsilon method dist nn lt hY, graph_only type k sigma epsilon method dist nn lt hY']
  have e : ∀ p, dist.order = .ok p → (fun i j => minkowski p (Y' i) (Y' j)) = fun i j => minkowski p (Y i) (Y j) := by
    intro p ho
    have hv := order_valid ho
    funext i j
    rw [hd p hv, hd' p hv, h p ho]
  have e1 : (dist.order >>= fun p => nnKnn k sigma (fun i j => minkowski p (Y' i) (Y' j)) nn) = dist.order >>= fun p => nnKnn k sigma (fun i j => minkowski p (Y i) (Y j)) nn := by
    cases ho : dist.order with
    | error e => simp only [bind, Except.bind]
    | ok p => simp only [bind, Except.bind, e p ho]
  have e2 : (dist.order >>= fun p => nnRadius epsilon sigma (fun i j => minkowski p (Y' i) (Y' j))) =
      dist.order >>= fun p => nnRadius epsilon sigma (fun i j => minkowski p (Y i) (Y j)) := by
    cases ho : dist.order with
    | error e => simp only [bind, Except.bind]
    | ok p => simp only [bind, Except.bind, e p ho]
  rw [e1, e2]

/-- **C140** So rotating, reflecting and moving the points does not change the graph for the Euclidean distance. -/
theorem C140_rotation {X : Fin N → Fin d → ℝ} {R : Matrix (Fin d) (Fin d) ℝ} (hR : Rᵀ * R = 1) (t : Fin d → ℝ) (type : NNType) (center center' : Bool) (k : ℕ)
    (sigma : Option ℝ) (epsilon : ℝ) (method : SymMethod) (nn : Fin N → List (Fin N)) (lt : LapType) :
    (nnGraph (fun i => R *ᵥ X i + t) type center' false k sigma epsilon method .euclidean nn lt).map Prod.fst =
      (nnGraph X type center false k sigma epsilon method .euclidean nn lt).map Prod.fst := by
  refine C140_distances_only (fun p hp i j => ?_) type center center' k sigma epsilon method nn lt
  obtain rfl := Except.ok.inj hp
  rw [mink_two, mink_two]
  congr 1
  have h1 : ∀ x : Fin d → ℝ, ∑ a, x a ^ 2 = x ⬝ᵥ x := fun x => Finset.sum_congr rfl fun a _ => by ring
  have h2 : ∀ x y : Fin d → ℝ, ∑ a, ((R *ᵥ x + t) a - (R *ᵥ y + t) a) ^ 2 = ∑ a, (R *ᵥ (x - y)) a ^ 2 := by
    intro x y
    refine Finset.sum_congr rfl fun a _ => ?_
    rw [Matrix.mulVec_sub]
    simp
  rw [h2, h1, Matrix.dotProduct_mulVec, ← Matrix.mulVec_transpose, Matrix.mulVec_mulVec, hR, Matrix.one_mulVec]
  exact (h1 (X i - X j)).symm

/-! ### Units -/

section

variable {X : Fin N → Fin d → ℝ} {center : Bool} {k : ℕ} {sigma : Option ℝ} {epsilon : ℝ} {method : SymMethod} {dist : DistType} {nn : Fin N → List (Fin N)}
  {lt : LapType} {g g' : Graph N ℝ} {Y Y' : Fin N → Fin d → ℝ} {p : MinkP} {c : ℝ}

theorem Gen.scaled_dist (hc : 0 < c) (hY : nnPoints center false X = .ok Y) (hY' : nnPoints center false (fun i a => c * X i a) = .ok Y') (hv : p.Valid) (i j : Fin N) :
    minkowski p (Y' i) (Y' j) = c * minkowski p (Y i) (Y j) := by
  obtain ⟨Z, hZ, hd⟩ := points_false center X
  obtain ⟨Z', hZ', hd'⟩ := points_false center fun i a => c * X i a
  obtain rfl := Except.ok.inj (hY.symm.trans hZ)
  obtain rfl := Except.ok.inj (hY'.symm.trans hZ')
  rw [hd p hv, hd' p hv]
  have := mink_affine p hv hc.le (fun _ => 0) (X i) (X j)
  simpa using this

theorem Gen.exp_units (hc : 0 < c) {δ σ : ℝ} : Real.exp (-(c * δ) ^ 2 / (c * σ)) = Real.exp (-δ ^ 2 / σ) ^ c ∧ Real.exp (-(c * δ) ^ 2 / σ) = Real.exp (-δ ^ 2 / σ) ^ (c ^ 2) := by
  rw [← Real.exp_mul, ← Real.exp_mul]
  constructor
  · congr 1
    rcases eq_or_ne σ 0 with rfl | h
    · simp
    · field_simp
  · congr 1
    ring

theorem Gen.units_core {X' : Fin N → Fin d' → ℝ} {Y' : Fin N → Fin d' → ℝ} {center' rescale rescale' : Bool} (hc : 0 < c) (h : nnGraph X .knn center rescale k sigma epsilon method dist nn lt = .ok (g, Y))
    (h' : nnGraph X' .knn center' rescale' k sigma epsilon method dist nn lt = .ok (g', Y')) (hp : dist.order = .ok p)
    (hnn : KnnSpec k (fun i j => minkowski p (Y i) (Y j)) nn) (hX : ∀ i j, X i = X j → i = j) (hδ : ∀ i j, minkowski p (Y' i) (Y' j) = c * minkowski p (Y i) (Y j)) (hm : method ≠ .average) (i j : Fin N) :
    (sigma = none → g'.W.dense i j = g.W.dense i j ^ c) ∧ (sigma ≠ none → g'.W.dense i j = g.W.dense i j ^ (c ^ 2)) := by
  have hv := order_valid hp
  obtain ⟨hkN, hY, -, -, -, -, -, hS, -, -⟩ := nnGraph_ok h
  obtain ⟨-, hY', -⟩ := nnGraph_ok h'
  have hnn' : KnnSpec k (fun i j => minkowski p (Y' i) (Y' j)) nn := by
    intro i
    obtain ⟨a1, a2, a3, a4⟩ := hnn i
    refine ⟨a1, a2, a3.imp fun q => ?_, fun l hl j hj => ?_⟩
    · beta_reduce; rw [hδ, hδ]; exact mul_le_mul_of_nonneg_left q hc.le
    · beta_reduce; rw [hδ, hδ]; exact mul_le_mul_of_nonneg_left (a4 l hl j hj) hc.le
  have hX' : ∀ i j, X' i = X' j → i = j := by
    intro i j e
    obtain ⟨c1, hc1, t1, ht1⟩ := points_affine (by omega) hY
    obtain ⟨c2, hc2, t2, ht2⟩ := points_affine (by omega) hY'
    have h1 : minkowski p (Y' i) (Y' j) = 0 := by rw [mink_zero hv, ht2 i, ht2 j, e]
    rw [hδ, mul_eq_zero, or_iff_right hc.ne', mink_zero hv, ht1 i, ht1 j] at h1
    refine hX i j (funext fun a => ?_)
    have := mul_left_cancel₀ hc1.ne' (congrFun h1 a)
    linarith
  obtain ⟨-, σ, s1, s2, a, ha, -, m2, m3, m4⟩ := knn_explicit h hp hnn hX
  obtain ⟨-, σ', s1', s2', a', ha', -, m2', m3', m4'⟩ := knn_explicit h' hp hnn' hX'
  have key : ∀ P : Prop, [Decidable P] → ∀ i j,
      (sigma = none → (if P then Real.exp (-(minkowski p (Y' i) (Y' j)) ^ 2 / σ') else 0) = (if P then Real.exp (-(minkowski p (Y i) (Y j)) ^ 2 / σ) else 0) ^ c) ∧
      (sigma ≠ none → (if P then Real.exp (-(minkowski p (Y' i) (Y' j)) ^ 2 / σ') else 0) = (if P then Real.exp (-(minkowski p (Y i) (Y j)) ^ 2 / σ) else 0) ^ (c ^ 2)) := by
    intro P _ i j
    constructor
    · intro hs
      have hσ : σ' = c * σ := by
        rw [(s2 hs).1, (s2' hs).1]
        simp only [hδ, ← Finset.mul_sum]
        ring
      split
      · rw [hδ, hσ]; exact (exp_units hc).1
      · rw [Real.zero_rpow hc.ne']
    · intro hs
      obtain ⟨s, hs⟩ := Option.ne_none_iff_exists'.1 hs
      rw [s1 s hs, s1' s hs]
      split
      · rw [hδ]; exact (exp_units hc).2
      · rw [Real.zero_rpow (by positivity)]
  have mcase : method = .maximum ∨ method = .fill ∨ method = .tril ∨ method = .triu := by
    cases method with
    | average => exact absurd rfl hm
    | maximum => exact .inl rfl
    | fill => exact .inr (.inl rfl)
    | tril => exact .inr (.inr (.inl rfl))
    | triu => exact .inr (.inr (.inr rfl))
    | other s =>
      exfalso
      obtain ⟨-, -, -, W, S, -, -, hS, -⟩ := nnGraph_ok h
      have := (C53_errors true W (.other s)).1 (.inr ⟨s, rfl⟩)
      rw [this] at hS
      cases hS
  rcases mcase with e | e | e | e
  · rw [m2 (.inl e), m2' (.inl e)]
    exact key _ i j
  · rw [m2 (.inr e), m2' (.inr e)]
    exact key _ i j
  · rw [m3 e, m3' e]
    split
    · rw [ha, ha']; exact key _ i j
    · rw [ha, ha']; exact key _ j i
  · rw [m4 e, m4' e]
    split
    · rw [ha, ha']; exact key _ i j
    · rw [ha, ha']; exact key _ j i

/-- **C140** The weights depend on the unit of the points (with `rescale=False`): when all the points are multiplied by `c`, those of the k-nearest-neighbours graph are raised to the
power `c` if sigma is not given (it is then the mean distance, not its square), and to the power `c²` if it is given. -/
theorem C140_units_knn (hc : 0 < c) (h : nnGraph X .knn center false k sigma epsilon method dist nn lt = .ok (g, Y))
    (h' : nnGraph (fun i a => c * X i a) .knn center false k sigma epsilon method dist nn lt = .ok (g', Y')) (hp : dist.order = .ok p)
    (hnn : KnnSpec k (fun i j => minkowski p (Y i) (Y j)) nn) (hX : ∀ i j, X i = X j → i = j) (hm : method ≠ .average) (i j : Fin N) :
    (sigma = none → g'.W.dense i j = g.W.dense i j ^ c) ∧ (sigma ≠ none → g'.W.dense i j = g.W.dense i j ^ (c ^ 2)) := by
  obtain ⟨-, hY, -⟩ := nnGraph_ok h
  obtain ⟨-, hY', -⟩ := nnGraph_ok h'
  exact units_core hc h h' hp hnn hX (fun i j => scaled_dist hc hY hY' (order_valid hp) i j) hm i j

theorem Gen.radius_center (hN : 0 < N) (X : Fin N → Fin d → ℝ) : boundingRadius (nnCenter X) = boundingRadius X := by
  haveI : Nonempty (Fin N) := ⟨⟨0, hN⟩⟩
  unfold boundingRadius
  congr 2
  refine Finset.sum_congr rfl fun a _ => ?_
  have h1 : (⨆ i, nnCenter X i a) = (⨆ i, X i a) - (∑ l, X l a) / N := by
    refine le_antisymm (ciSup_le fun i => ?_) ?_
    · have := le_ciSup (f := fun i => X i a) (Set.finite_range _).bddAbove i
      unfold nnCenter
      linarith
    · have : (⨆ i, X i a) ≤ (⨆ i, nnCenter X i a) + (∑ l, X l a) / N := ciSup_le fun i => by
        have := le_ciSup (f := fun i => nnCenter X i a) (Set.finite_range _).bddAbove i
        unfold nnCenter at this ⊢
        linarith
      linarith
  have h2 : (⨅ i, nnCenter X i a) = (⨅ i, X i a) - (∑ l, X l a) / N := by
    refine le_antisymm ?_ (le_ciInf fun i => ?_)
    · have : (⨅ i, nnCenter X i a) + (∑ l, X l a) / N ≤ ⨅ i, X i a := le_ciInf fun i => by
        have := ciInf_le (f := fun i => nnCenter X i a) (Set.finite_range _).bddBelow i
        unfold nnCenter at this ⊢
        linarith
      linarith
    · have := ciInf_le (f := fun i => X i a) (Set.finite_range _).bddBelow i
      unfold nnCenter
      linarith
  rw [h1, h2]
  ring

theorem Gen.points_true (hN : 0 < N) (hY : nnPoints center true X = .ok Y) (hv : p.Valid) :
    boundingRadius X ≠ 0 ∧ ∀ i j, minkowski p (Y i) (Y j) = nnScale N d / boundingRadius X * minkowski p (X i) (X j) := by
  have hb : boundingRadius (if center then nnCenter X else X) = boundingRadius X := by
    cases center
    · rfl
    · exact radius_center hN X
  have hd : ∀ i j, minkowski p ((if center then nnCenter X else X) i) ((if center then nnCenter X else X) j) = minkowski p (X i) (X j) := by
    obtain ⟨Z, hZ, h⟩ := points_false center X
    have e : (if center then nnCenter X else X) = Z := by simpa [nnPoints] using hZ
    rw [e]
    exact h p hv
  unfold nnPoints at hY
  dsimp only at hY
  rw [if_pos rfl] at hY
  revert hb hd hY
  generalize (if center then nnCenter X else X) = Z
  intro hY hb hd
  unfold nnRescale at hY
  split at hY
  · cases hY
  split at hY
  · cases hY
  rename_i h1 h2
  rw [hb] at h2
  refine ⟨h2, fun i j => ?_⟩
  have hpos : 0 ≤ nnScale N d / boundingRadius X := div_nonneg (nnScale_pos hN d).le (radius_nonneg X)
  obtain rfl := Except.ok.inj hY
  rw [← hd i j]
  have := mink_affine p hv hpos (fun _ => 0) (Z i) (Z j)
  simp only [sub_zero] at this
  rw [← this, hb]
  congr 1 <;> (funext a; ring)

/-- **C140** With `rescale=True` the unit has no effect (C79) but the orientation has: for points with the same distances (rotated, say), the weights are raised to the power `r / r'`,
the ratio of the half-diagonals of the boxes around the points, whose sides are parallel to the axes. -/
theorem C140_box {X' : Fin N → Fin d → ℝ} {Y' : Fin N → Fin d → ℝ} {center' : Bool} (hd : ∀ i j, minkowski p (X' i) (X' j) = minkowski p (X i) (X j))
    (h : nnGraph X .knn center true k none epsilon method dist nn lt = .ok (g, Y))
    (h' : nnGraph X' .knn center' true k none epsilon method dist nn lt = .ok (g', Y')) (hp : dist.order = .ok p)
    (hnn : KnnSpec k (fun i j => minkowski p (Y i) (Y j)) nn) (hX : ∀ i j, X i = X j → i = j) (hm : method ≠ .average) (i j : Fin N) :
    g'.W.dense i j = g.W.dense i j ^ (boundingRadius X / boundingRadius X') := by
  obtain ⟨hkN, hY, -⟩ := nnGraph_ok h
  obtain ⟨-, hY', -⟩ := nnGraph_ok h'
  have hN : 0 < N := by omega
  obtain ⟨r0, e0⟩ := points_true (p := p) hN hY (order_valid hp)
  obtain ⟨r1, e1⟩ := points_true (p := p) hN hY' (order_valid hp)
  have p0 : 0 < boundingRadius X := lt_of_le_of_ne (radius_nonneg X) (Ne.symm r0)
  have p1 : 0 < boundingRadius X' := lt_of_le_of_ne (radius_nonneg X') (Ne.symm r1)
  have hs := nnScale_pos hN d
  refine (units_core (c := boundingRadius X / boundingRadius X') (div_pos p0 p1) h h' hp hnn hX (fun i j => ?_) hm i j).1 rfl
  rw [e0, e1, hd]
  field_simp

/-- **C140** The same for the points within `epsilon`, when epsilon is expressed in the new unit. -/
theorem C140_units_radius (hc : 0 < c) (h : nnGraph X .radius center false k sigma epsilon method dist nn lt = .ok (g, Y))
    (h' : nnGraph (fun i a => c * X i a) .radius center false k sigma (c * epsilon) method dist nn lt = .ok (g', Y')) (i j : Fin N) :
    (sigma = none → g'.W.dense i j = g.W.dense i j ^ c) ∧ (sigma ≠ none → g'.W.dense i j = g.W.dense i j ^ (c ^ 2)) := by
  obtain ⟨-, hY, -⟩ := nnGraph_ok h
  obtain ⟨-, hY', -⟩ := nnGraph_ok h'
  obtain ⟨-, -, p, σ, hp, s1, s2, w⟩ := C79_radius h
  obtain ⟨-, -, p', σ', hp', s1', s2', w'⟩ := C79_radius h'
  obtain rfl := Except.ok.inj (hp.symm.trans hp')
  have hv := order_valid hp
  have hδ : ∀ i j, minkowski p (Y' i) (Y' j) = c * minkowski p (Y i) (Y j) := fun i j => scaled_dist hc hY hY' hv i j
  have hiff : ∀ i j, (i ≠ j ∧ minkowski p (Y' i) (Y' j) ≤ c * epsilon) ↔ i ≠ j ∧ minkowski p (Y i) (Y j) ≤ epsilon := by
    intro i j
    rw [hδ, mul_le_mul_iff_right₀ hc]
  rw [w, w', if_congr (hiff i j) rfl rfl]
  constructor
  · intro hs
    obtain ⟨p0, e0⟩ := s2 hs
    obtain ⟨p1, e1⟩ := s2' hs
    have hσ : σ' = c * σ := by
      have e2 : (∑ i, ∑ j, if i ≠ j ∧ minkowski p (Y i) (Y j) ≤ epsilon then c * σ - σ' else 0) = 0 := by
        have : (∑ i, ∑ j, if i ≠ j ∧ minkowski p (Y' i) (Y' j) ≤ c * epsilon then minkowski p (Y' i) (Y' j) - σ' else 0) =
            c * (∑ i, ∑ j, if i ≠ j ∧ minkowski p (Y i) (Y j) ≤ epsilon then minkowski p (Y i) (Y j) - σ else 0) +
              ∑ i, ∑ j, if i ≠ j ∧ minkowski p (Y i) (Y j) ≤ epsilon then c * σ - σ' else 0 := by
          rw [Finset.mul_sum, ← Finset.sum_add_distrib]
          refine Finset.sum_congr rfl fun i _ => ?_
          rw [Finset.mul_sum, ← Finset.sum_add_distrib]
          refine Finset.sum_congr rfl fun j _ => ?_
          rw [if_congr (hiff i j) rfl rfl, hδ]
          split <;> ring
        rw [e0, mul_zero, zero_add, e1] at this
        exact this.symm
      by_contra hne
      have hz : ∀ i j, ¬ (i ≠ j ∧ minkowski p (Y i) (Y j) ≤ epsilon) := by
        have hcount : (∑ i, ∑ j, if i ≠ j ∧ minkowski p (Y i) (Y j) ≤ epsilon then (1 : ℝ) else 0) = 0 := by
          have hne' : c * σ - σ' ≠ 0 := fun e => hne (by linarith)
          have : (∑ i, ∑ j, if i ≠ j ∧ minkowski p (Y i) (Y j) ≤ epsilon then c * σ - σ' else 0) =
              (c * σ - σ') * ∑ i, ∑ j, if i ≠ j ∧ minkowski p (Y i) (Y j) ≤ epsilon then (1 : ℝ) else 0 := by
            rw [Finset.mul_sum]
            refine Finset.sum_congr rfl fun i _ => ?_
            rw [Finset.mul_sum]
            exact Finset.sum_congr rfl fun j _ => by split <;> simp
          rw [this] at e2
          exact (mul_eq_zero.1 e2).resolve_left hne'
        intro i j hij
        have h1 := (Finset.sum_eq_zero_iff_of_nonneg fun i _ => Finset.sum_nonneg fun j _ => by split <;> norm_num).1 hcount i (Finset.mem_univ i)
        have h2 := (Finset.sum_eq_zero_iff_of_nonneg fun j _ => by split <;> norm_num).1 h1 j (Finset.mem_univ j)
        rw [if_pos hij] at h2
        norm_num at h2
      -- without a pair within epsilon the constructor fails
      obtain ⟨hkN, -⟩ := nnGraph_ok h
      have hN : N ≠ 0 := by omega
      have := ((C79_errors X .radius center false k none epsilon method dist nn lt).2 hkN Y hY).2.2.2 p hp fun i j hij => by
        have := hz i j
        push Not at this
        exact this hij
      rw [hs, this] at h
      cases h
    split
    · rw [hδ, hσ]; exact (exp_units hc).1
    · rw [Real.zero_rpow hc.ne']
  · intro hs
    obtain ⟨s, hs⟩ := Option.ne_none_iff_exists'.1 hs
    rw [s1 s hs, s1' s hs]
    split
    · rw [hδ]; exact (exp_units hc).2
    · rw [Real.zero_rpow (by positivity)]

end

/-! ### More neighbours -/

section

variable {X : Fin N → Fin d → ℝ} {center rescale : Bool} {k k' : ℕ} {s epsilon epsilon' : ℝ} {sigma : Option ℝ} {method : SymMethod} {dist dist' : DistType}
  {nn nn' : Fin N → List (Fin N)} {lt : LapType} {g g' : Graph N ℝ} {Y Y' : Fin N → Fin d → ℝ} {p q : MinkP}

/-- **C140** With a given sigma, more neighbours do not remove edges, and do not lower weights (no two points being at the same distance of a third one). -/
theorem C140_more_neighbours (hk : k ≤ k') (h : nnGraph X .knn center rescale k (some s) epsilon method dist nn lt = .ok (g, Y))
    (h' : nnGraph X .knn center rescale k' (some s) epsilon' method dist nn' lt = .ok (g', Y')) (hp : dist.order = .ok p)
    (hnn : KnnSpec k (fun i j => minkowski p (Y i) (Y j)) nn) (hnn' : KnnSpec k' (fun i j => minkowski p (Y i) (Y j)) nn')
    (hties : ∀ i a b, minkowski p (Y i) (Y a) = minkowski p (Y i) (Y b) → a = b) (i j : Fin N) : g.W.dense i j ≤ g'.W.dense i j := by
  have hv := order_valid hp
  obtain ⟨hkN, hY, -⟩ := nnGraph_ok h
  obtain ⟨-, hY', -⟩ := nnGraph_ok h'
  obtain rfl := Except.ok.inj (hY.symm.trans hY')
  have hX : ∀ i j, X i = X j → i = j := by
    intro i j e
    obtain ⟨c, hc, t, ht⟩ := points_affine (by omega) hY
    refine hties i i j ?_
    rw [show Y j = Y i by rw [ht i, ht j, e]]
  obtain ⟨n1, σ, s1, -, a, ha, m1, m2, m3, m4⟩ := knn_explicit h hp hnn hX
  obtain ⟨n1', σ', s1', -, a', ha', m1', m2', m3', m4'⟩ := knn_explicit h' hp hnn' hX
  have hσ : σ' = σ := (s1' s rfl).trans (s1 s rfl).symm
  subst hσ
  have hsub : ∀ i, (nn i).tail.toFinset ⊆ (nn' i).tail.toFinset := by
    intro i l hl
    by_contra hl'
    obtain ⟨b1, b2, b3⟩ := n1 i
    obtain ⟨b1', b2', b3'⟩ := n1' i
    have hli : l ≠ i := fun e => b1 (e ▸ hl)
    have hss : (nn' i).tail.toFinset ⊆ (nn i).tail.toFinset.erase l := by
      intro x hx
      have hxl : x ≠ l := fun e => hl' (e ▸ hx)
      refine Finset.mem_erase.2 ⟨hxl, ?_⟩
      by_contra hx'
      have hxi : x ≠ i := fun e => b1' (e ▸ hx)
      have h1 := b3 l hl x hx' hxi
      have h2 := b3' x hx l hl' hli
      exact hxl (hties i x l (le_antisymm h2 h1))
    have hc := Finset.card_le_card hss
    rw [Finset.card_erase_of_mem hl, b2, b2'] at hc
    have : 0 < k := by rw [← b2]; exact Finset.card_pos.2 ⟨l, hl⟩
    omega
  have hmono : ∀ (P Q : Prop) [Decidable P] [Decidable Q], (P → Q) → ∀ i j,
      (if P then Real.exp (-(minkowski p (Y i) (Y j)) ^ 2 / σ') else 0) ≤ if Q then Real.exp (-(minkowski p (Y i) (Y j)) ^ 2 / σ') else 0 := by
    intro P Q _ _ hPQ i j
    by_cases hP : P
    · rw [if_pos hP, if_pos (hPQ hP)]
    · rw [if_neg hP]
      split
      · exact (Real.exp_pos _).le
      · exact le_rfl
  have haa : ∀ i j, a i j ≤ a' i j := by
    intro i j
    rw [ha, ha']
    exact hmono _ _ (fun q => hsub i q) i j
  cases method with
  | average => rw [m1 rfl, m1' rfl]; linarith [haa i j, haa j i]
  | maximum => rw [m2 (.inl rfl), m2' (.inl rfl)]; exact hmono _ _ (Or.imp (fun q => hsub i q) fun q => hsub j q) i j
  | fill => rw [m2 (.inr rfl), m2' (.inr rfl)]; exact hmono _ _ (Or.imp (fun q => hsub i q) fun q => hsub j q) i j
  | tril => rw [m3 rfl, m3' rfl]; split; exacts [haa i j, haa j i]
  | triu => rw [m4 rfl, m4' rfl]; split; exacts [haa i j, haa j i]
  | other t =>
    exfalso
    obtain ⟨-, -, -, W, S, -, -, hS, -⟩ := nnGraph_ok h
    have := (C53_errors true W (.other t)).1 (.inr ⟨t, rfl⟩)
    rw [this] at hS
    cases hS

/-- The orders of the Minkowski distances. -/
def Spec.OrderLE : MinkP → MinkP → Prop
  | .fin p, .fin q => p ≤ q
  | _, .inf => True
  | .inf, .fin _ => False

theorem Gen.mink_antitone (hp : p.Valid) (hq : q.Valid) (h : OrderLE p q) (x y : Fin d → ℝ) : minkowski q x y ≤ minkowski p x y := by
  have coord : ∀ {r : ℝ}, 1 ≤ r → ∀ a, |x a - y a| ≤ (∑ a, |x a - y a| ^ r) ^ (1 / r) := by
    intro r hr a
    have h1 : |x a - y a| ^ r ≤ ∑ a, |x a - y a| ^ r :=
      Finset.single_le_sum (f := fun a => |x a - y a| ^ r) (fun a _ => Real.rpow_nonneg (abs_nonneg _) _) (Finset.mem_univ a)
    calc |x a - y a| = (|x a - y a| ^ r) ^ (1 / r) := by
          rw [← Real.rpow_mul (abs_nonneg _), mul_one_div_cancel (by linarith), Real.rpow_one]
      _ ≤ _ := Real.rpow_le_rpow (Real.rpow_nonneg (abs_nonneg _) _) h1 (by positivity)
  cases p with
  | fin p =>
    change 1 ≤ p at hp
    cases q with
    | fin q =>
      change 1 ≤ q at hq
      change p ≤ q at h
      change (∑ a, |x a - y a| ^ q) ^ (1 / q) ≤ (∑ a, |x a - y a| ^ p) ^ (1 / p)
      set A := ∑ a, |x a - y a| ^ p with hA
      have hA0 : 0 ≤ A := Finset.sum_nonneg fun a _ => Real.rpow_nonneg (abs_nonneg _) _
      set S := A ^ (1 / p) with hS
      have hS0 : 0 ≤ S := Real.rpow_nonneg hA0 _
      have hSp : S ^ p = A := by rw [hS, ← Real.rpow_mul hA0, one_div_mul_cancel (by linarith), Real.rpow_one]
      have hterm : ∀ a, |x a - y a| ^ q ≤ |x a - y a| ^ p * S ^ (q - p) := by
        intro a
        rcases (abs_nonneg (x a - y a)).eq_or_lt with e | hpos
        · rw [← e, Real.zero_rpow (by linarith), Real.zero_rpow (by linarith), zero_mul]
        · rw [show q = p + (q - p) by ring, Real.rpow_add hpos, show p + (q - p) - p = q - p by ring]
          exact mul_le_mul_of_nonneg_left (Real.rpow_le_rpow hpos.le (coord hp a) (by linarith)) (Real.rpow_nonneg hpos.le _)
      have hsum : ∑ a, |x a - y a| ^ q ≤ S ^ q := by
        rcases hS0.eq_or_lt with e | hSpos
        · have hz : ∀ a, |x a - y a| = 0 := fun a => le_antisymm (by rw [e]; exact coord hp a) (abs_nonneg _)
          simp only [hz]
          rw [Real.zero_rpow (by linarith), ← e, Real.zero_rpow (by linarith)]
          simp
        · calc ∑ a, |x a - y a| ^ q ≤ ∑ a, |x a - y a| ^ p * S ^ (q - p) := Finset.sum_le_sum fun a _ => hterm a
            _ = S ^ p * S ^ (q - p) := by rw [← Finset.sum_mul, ← hA, hSp]
            _ = S ^ q := by rw [← Real.rpow_add hSpos]; congr 1; ring
      calc (∑ a, |x a - y a| ^ q) ^ (1 / q) ≤ (S ^ q) ^ (1 / q) :=
            Real.rpow_le_rpow (Finset.sum_nonneg fun a _ => Real.rpow_nonneg (abs_nonneg _) _) hsum (by positivity)
        _ = S := by rw [← Real.rpow_mul hS0, mul_one_div_cancel (by linarith), Real.rpow_one]
    | inf =>
      exact Real.iSup_le (fun a => coord hp a) (mink_nonneg (.fin p) x y)
  | inf =>
    cases q with
    | fin q => exact absurd h id
    | inf => exact le_rfl

/-- **C140** With a given positive sigma, a larger epsilon, and a distance of higher order (Manhattan, then Euclidean, then the largest difference), do not remove edges and do not
lower weights of the graph of the points within epsilon. -/
theorem C140_larger_radius (hs : 0 < s) (h : nnGraph X .radius center rescale k (some s) epsilon method dist nn lt = .ok (g, Y))
    (h' : nnGraph X .radius center rescale k' (some s) epsilon' method dist' nn' lt = .ok (g', Y')) (hp : dist.order = .ok p) (hq : dist'.order = .ok q)
    (he : epsilon ≤ epsilon') (ho : OrderLE p q) (i j : Fin N) : g.W.dense i j ≤ g'.W.dense i j := by
  obtain ⟨-, hY, -⟩ := nnGraph_ok h
  obtain ⟨-, hY', -⟩ := nnGraph_ok h'
  obtain rfl := Except.ok.inj (hY.symm.trans hY')
  obtain ⟨-, -, p0, σ, hp0, s1, -, w⟩ := C79_radius h
  obtain ⟨-, -, q0, σ', hq0, s1', -, w'⟩ := C79_radius h'
  obtain rfl := Except.ok.inj (hp.symm.trans hp0)
  obtain rfl := Except.ok.inj (hq.symm.trans hq0)
  rw [s1 s rfl] at w
  rw [s1' s rfl] at w'
  have hd := mink_antitone (order_valid hp) (order_valid hq) ho (Y i) (Y j)
  rw [w, w']
  split
  · rename_i hc
    rw [if_pos ⟨hc.1, (hd.trans hc.2).trans he⟩]
    refine Real.exp_le_exp.2 ?_
    have h1 := pow_le_pow_left₀ (mink_nonneg q (Y i) (Y j)) hd 2
    exact div_le_div_of_nonneg_right (by linarith) hs.le
  · split
    · exact (Real.exp_pos _).le
    · exact le_rfl

/-- **C140** Two vertices of the graph of the points within epsilon are linked exactly when one goes from one to the other by steps of length at most epsilon between the points. -/
theorem C140_chains (h : nnGraph X .radius center rescale k sigma epsilon method dist nn lt = .ok (g, Y)) (hp : dist.order = .ok p) (i j : Fin N) :
    Linked g.W.dense i j ↔ Relation.ReflTransGen (fun a b => minkowski p (Y a) (Y b) ≤ epsilon) i j := by
  obtain ⟨-, -, p0, σ, hp0, -, -, w⟩ := C79_radius h
  obtain rfl := Except.ok.inj (hp.symm.trans hp0)
  have hw : ∀ a b, g.W.dense a b ≠ 0 ↔ a ≠ b ∧ minkowski p (Y a) (Y b) ≤ epsilon := by
    intro a b
    rw [w]
    split
    · rename_i hc
      exact ⟨fun _ => hc, fun _ => Real.exp_ne_zero _⟩
    · rename_i hc
      exact ⟨fun q => absurd rfl q, fun q => absurd q hc⟩
  constructor
  · intro hl
    refine Relation.ReflTransGen.mono (p := fun a b => minkowski p (Y a) (Y b) ≤ epsilon) (fun a b hab => ?_) i j hl
    rcases hab with hab | hab
    · exact ((hw a b).1 hab).2
    · rw [mink_symm]; exact ((hw b a).1 hab).2
  · intro hl
    induction hl with
    | refl => exact .refl
    | tail _ hab ih =>
      rename_i a b _
      by_cases e : a = b
      · exact e ▸ ih
      · exact ih.tail (.inl ((hw a b).2 ⟨e, hab⟩))

/-- **C140** All the other points as neighbours, or all the points within a large epsilon, is the same graph. -/
theorem C140_complete (h : nnGraph X .knn center rescale (N - 1) sigma epsilon method dist nn lt = .ok (g, Y))
    (h' : nnGraph X .radius center rescale k sigma epsilon' method dist nn' lt = .ok (g', Y')) (hp : dist.order = .ok p)
    (hnn : KnnSpec (N - 1) (fun i j => minkowski p (Y i) (Y j)) nn) (hX : ∀ i j, X i = X j → i = j) (he : ∀ i j, minkowski p (Y i) (Y j) ≤ epsilon') :
    g'.W.dense = g.W.dense := by
  obtain ⟨hkN, hY, -⟩ := nnGraph_ok h
  obtain ⟨-, hY', -⟩ := nnGraph_ok h'
  obtain rfl := Except.ok.inj (hY.symm.trans hY')
  obtain ⟨n1, σ, s1, s2, a, ha, m1, m2, m3, m4⟩ := knn_explicit h hp hnn hX
  obtain ⟨-, -, p0, σ', hp0, s1', s2', w⟩ := C79_radius h'
  obtain rfl := Except.ok.inj (hp.symm.trans hp0)
  have hall : ∀ i j, j ∈ (nn i).tail.toFinset ↔ i ≠ j := by
    intro i j
    obtain ⟨b1, b2, -⟩ := n1 i
    have hsub : (nn i).tail.toFinset ⊆ Finset.univ.erase i := fun x hx => Finset.mem_erase.2 ⟨fun e => b1 (e ▸ hx), Finset.mem_univ x⟩
    have heq := Finset.eq_of_subset_of_card_le hsub (by rw [b2, Finset.card_erase_of_mem (Finset.mem_univ i)]; simp)
    rw [heq]
    simp [ne_comm]
  have hk0 : N - 1 ≠ 0 := by
    intro e
    rw [e] at h
    unfold nnGraph at h
    rw [if_neg (by omega), hY, hp] at h
    simp [bind, Except.bind, nnKnn, hp] at h
  have hσ : σ' = σ := by
    cases hs : sigma with
    | some t => rw [s1 t hs, s1' t hs]
    | none =>
      obtain ⟨e1, -⟩ := s2 hs
      obtain ⟨-, e2⟩ := s2' hs
      simp only [he, and_true] at e2
      have e3 : ∑ i : Fin N, ∑ j : Fin N, (if i ≠ j then minkowski p (Y i) (Y j) - σ' else 0) =
          (∑ i : Fin N, ∑ l ∈ (nn i).tail.toFinset, minkowski p (Y i) (Y l)) - N * (N - 1 : ℕ) * σ' := by
        have : ∀ i : Fin N, ∑ j : Fin N, (if i ≠ j then minkowski p (Y i) (Y j) - σ' else 0) =
            ∑ l ∈ (nn i).tail.toFinset, minkowski p (Y i) (Y l) - (N - 1 : ℕ) * σ' := by
          intro i
          rw [← Finset.sum_filter]
          have hf : (Finset.univ.filter fun j => i ≠ j) = (nn i).tail.toFinset := by
            ext j
            rw [hall]
            simp
          rw [hf, Finset.sum_sub_distrib, Finset.sum_const, (n1 i).2.1, nsmul_eq_mul]
        rw [Finset.sum_congr rfl fun i _ => this i, Finset.sum_sub_distrib, Finset.sum_const, Finset.card_univ, Fintype.card_fin, nsmul_eq_mul]
        ring
      rw [e3] at e2
      have hN0 : (N : ℝ) ≠ 0 := by exact_mod_cast (by omega : N ≠ 0)
      have hN1 : ((N - 1 : ℕ) : ℝ) ≠ 0 := by exact_mod_cast hk0
      rw [e1, eq_div_iff (mul_ne_zero hN0 hN1)]
      linarith
  have haw : ∀ i j, a i j = g'.W.dense i j := by
    intro i j
    rw [ha, w, hσ]
    exact if_congr ((hall i j).trans (by simp [he])) rfl rfl
  have hasym : ∀ i j, a i j = a j i := by
    intro i j
    rw [ha, ha, mink_symm]
    exact if_congr (by rw [hall, hall, ne_comm]) rfl rfl
  ext i j
  rw [← haw]
  cases method with
  | average => rw [m1 rfl, hasym j i]; ring
  | maximum =>
    rw [m2 (.inl rfl), ha]
    exact if_congr (by rw [hall, hall]; exact ⟨.inl, fun q => q.elim id Ne.symm⟩) rfl rfl
  | fill =>
    rw [m2 (.inr rfl), ha]
    exact if_congr (by rw [hall, hall]; exact ⟨.inl, fun q => q.elim id Ne.symm⟩) rfl rfl
  | tril => rw [m3 rfl]; split; exacts [rfl, hasym i j]
  | triu => rw [m4 rfl]; split; exacts [rfl, hasym i j]
  | other t =>
    exfalso
    obtain ⟨-, -, -, W, S, -, -, hS, -⟩ := nnGraph_ok h
    have := (C53_errors true W (.other t)).1 (.inr ⟨t, rfl⟩)
    rw [this] at hS
    cases hS

end

/-! ### The order of the points -/

section

variable {X : Fin N → Fin d → ℝ} {center rescale : Bool} {k : ℕ} {sigma : Option ℝ} {epsilon : ℝ} {method : SymMethod} {dist : DistType}
  {nn nn' : Fin N → List (Fin N)} {lt : LapType} {g g' : Graph N ℝ} {Y Y' : Fin N → Fin d → ℝ} {p : MinkP}

theorem Gen.points_perm (π : Equiv.Perm (Fin N)) (hY : nnPoints center rescale X = .ok Y) : nnPoints center rescale (fun i => X (π i)) = .ok fun i => Y (π i) := by
  have hc : (if center then nnCenter (fun i => X (π i)) else fun i => X (π i)) = fun i => (if center then nnCenter X else X) (π i) := by
    cases center
    · rfl
    · funext i a
      simp only [if_true, nnCenter]
      rw [Equiv.sum_comp π fun l => X l a]
  unfold nnPoints at hY ⊢
  dsimp only at hY ⊢
  rw [hc]
  revert hY
  generalize (if center then nnCenter X else X) = Z
  intro hY
  cases rescale
  · simp only [Bool.false_eq_true, if_false, Except.ok.injEq] at hY ⊢
    rw [hY]
  · simp only [if_true] at hY ⊢
    have hb : boundingRadius (fun i => Z (π i)) = boundingRadius Z := by
      unfold boundingRadius
      congr 2
      refine Finset.sum_congr rfl fun a _ => ?_
      rw [Equiv.iSup_comp (g := fun i => Z i a) π, Equiv.iInf_comp (g := fun i => Z i a) π]
    unfold nnRescale at hY ⊢
    rw [hb]
    split at hY
    · cases hY
    · rename_i h1
      rw [if_neg h1]
      split at hY
      · cases hY
      · rename_i h2
        rw [if_neg h2]
        obtain rfl := Except.ok.inj hY
        rfl

/-- **C140** Listing the points in another order renames the vertices (no two points being at the same distance of a third one; average, maximum or fill). -/
theorem C140_order_knn (π : Equiv.Perm (Fin N)) (h : nnGraph X .knn center rescale k sigma epsilon method dist nn lt = .ok (g, Y))
    (h' : nnGraph (fun i => X (π i)) .knn center rescale k sigma epsilon method dist nn' lt = .ok (g', Y')) (hp : dist.order = .ok p)
    (hnn : KnnSpec k (fun i j => minkowski p (Y i) (Y j)) nn) (hnn' : KnnSpec k (fun i j => minkowski p (Y' i) (Y' j)) nn')
    (hties : ∀ i a b, minkowski p (Y i) (Y a) = minkowski p (Y i) (Y b) → a = b) (hm : method = .average ∨ method = .maximum ∨ method = .fill) :
    (∀ i, Y' i = Y (π i)) ∧ ∀ i j, g'.W.dense i j = g.W.dense (π i) (π j) := by
  have hv := order_valid hp
  obtain ⟨hkN, hY, -⟩ := nnGraph_ok h
  obtain ⟨-, hY', -⟩ := nnGraph_ok h'
  obtain rfl := Except.ok.inj ((points_perm π hY).symm.trans hY')
  refine ⟨fun i => rfl, ?_⟩
  have hX : ∀ i j, X i = X j → i = j := by
    intro i j e
    obtain ⟨c, hc, t, ht⟩ := points_affine (by omega) hY
    refine hties i i j ?_
    rw [show Y j = Y i by rw [ht i, ht j, e]]
  have hnn2 : KnnSpec k (fun i j => minkowski p (Y (π i)) (Y (π j))) fun i => (nn (π i)).map π.symm := by
    intro i
    obtain ⟨a1, a2, a3, a4⟩ := hnn (π i)
    refine ⟨a1.map π.symm.injective, by rw [List.length_map, a2], ?_, ?_⟩
    · rw [List.pairwise_map]
      refine a3.imp fun {x y} q => ?_
      simpa using q
    · intro l hl j hj
      obtain ⟨l', hl', rfl⟩ := List.mem_map.1 hl
      have hj' : π j ∉ nn (π i) := fun q => hj (List.mem_map.2 ⟨π j, q, by simp⟩)
      simpa using a4 l' hl' (π j) hj'
  have hun := knn_unique hnn' hnn2 fun i a b e => π.injective (hties _ _ _ e)
  have hmem : ∀ i j, j ∈ (nn' i).tail.toFinset ↔ π j ∈ (nn (π i)).tail.toFinset := by
    intro i j
    rw [hun, List.mem_toFinset, List.mem_toFinset, ← List.map_tail, List.mem_map]
    exact ⟨fun ⟨x, hx, e⟩ => by rw [← e]; simpa using hx, fun q => ⟨π j, q, by simp⟩⟩
  obtain ⟨-, σ, s1, s2, a, ha, m1, m2, -, -⟩ := knn_explicit h hp hnn hX
  obtain ⟨-, σ', s1', s2', a', ha', m1', m2', -, -⟩ := knn_explicit h' hp hnn' fun i j e => π.injective (hX _ _ e)
  have hσ : σ' = σ := by
    cases hs : sigma with
    | some t => rw [s1 t hs, s1' t hs]
    | none =>
      rw [(s2 hs).1, (s2' hs).1]
      congr 1
      rw [← Equiv.sum_comp π fun i => ∑ l ∈ (nn i).tail.toFinset, minkowski p (Y i) (Y l)]
      refine Finset.sum_congr rfl fun i _ => ?_
      refine Finset.sum_bij (fun l _ => π l) (fun l hl => (hmem i l).1 hl) (fun _ _ _ _ e => π.injective e) (fun b hb => ⟨π.symm b, (hmem i _).2 (by simpa using hb), by simp⟩)
        fun l _ => rfl
  subst hσ
  have haa : ∀ i j, a' i j = a (π i) (π j) := by
    intro i j
    rw [ha, ha']
    exact if_congr (hmem i j) rfl rfl
  intro i j
  rcases hm with e | e | e
  · rw [m1 e, m1' e, haa, haa]
  · rw [m2 (.inl e), m2' (.inl e)]
    exact if_congr (or_congr (hmem i j) (hmem j i)) rfl rfl
  · rw [m2 (.inr e), m2' (.inr e)]
    exact if_congr (or_congr (hmem i j) (hmem j i)) rfl rfl

/-- **C140** The same for the points within epsilon, with any symmetrization. -/
theorem C140_order_radius (π : Equiv.Perm (Fin N)) (h : nnGraph X .radius center rescale k sigma epsilon method dist nn lt = .ok (g, Y))
    (h' : nnGraph (fun i => X (π i)) .radius center rescale k sigma epsilon method dist nn' lt = .ok (g', Y')) (i j : Fin N) :
    g'.W.dense i j = g.W.dense (π i) (π j) := by
  obtain ⟨hkN, hY, -⟩ := nnGraph_ok h
  obtain ⟨-, hY', -⟩ := nnGraph_ok h'
  obtain rfl := Except.ok.inj ((points_perm π hY).symm.trans hY')
  obtain ⟨-, -, p, σ, hp, s1, s2, w⟩ := C79_radius h
  obtain ⟨-, -, p', σ', hp', s1', s2', w'⟩ := C79_radius h'
  obtain rfl := Except.ok.inj (hp.symm.trans hp')
  have hσ : σ' = σ := by
    cases hs : sigma with
    | some t => rw [s1 t hs, s1' t hs]
    | none =>
      obtain ⟨-, e1⟩ := s2 hs
      obtain ⟨-, e2⟩ := s2' hs
      have e3 : (∑ i, ∑ j, if i ≠ j ∧ minkowski p (Y i) (Y j) ≤ epsilon then minkowski p (Y i) (Y j) - σ' else 0) = 0 := by
        rw [← Equiv.sum_comp π]
        refine Eq.trans ?_ e2
        refine Finset.sum_congr rfl fun i _ => ?_
        rw [← Equiv.sum_comp π]
        refine Finset.sum_congr rfl fun j _ => ?_
        exact if_congr (by rw [π.injective.ne_iff]) rfl rfl
      have e4 : (∑ i, ∑ j, if i ≠ j ∧ minkowski p (Y i) (Y j) ≤ epsilon then σ' - σ else 0) = 0 := by
        have : (∑ i, ∑ j, if i ≠ j ∧ minkowski p (Y i) (Y j) ≤ epsilon then σ' - σ else 0) =
            (∑ i, ∑ j, if i ≠ j ∧ minkowski p (Y i) (Y j) ≤ epsilon then minkowski p (Y i) (Y j) - σ else 0) -
              ∑ i, ∑ j, if i ≠ j ∧ minkowski p (Y i) (Y j) ≤ epsilon then minkowski p (Y i) (Y j) - σ' else 0 := by
          rw [← Finset.sum_sub_distrib]
          refine Finset.sum_congr rfl fun i _ => ?_
          rw [← Finset.sum_sub_distrib]
          refine Finset.sum_congr rfl fun j _ => ?_
          split <;> ring
        rw [this, e1, e3, sub_self]
      obtain ⟨x, y, hxy⟩ : ∃ x y, x ≠ y ∧ minkowski p (Y x) (Y y) ≤ epsilon := by
        by_contra hno
        push Not at hno
        have := ((C79_errors X .radius center rescale k none epsilon method dist nn lt).2 hkN Y hY).2.2.2 p hp fun i j hij => hno i j hij
        rw [hs, this] at h
        cases h
      by_contra hne
      have hcount : 0 < ∑ i, ∑ j, if i ≠ j ∧ minkowski p (Y i) (Y j) ≤ epsilon then (1 : ℝ) else 0 := by
        refine Finset.sum_pos' (fun i _ => Finset.sum_nonneg fun j _ => by split <;> norm_num) ⟨x, Finset.mem_univ x, ?_⟩
        refine Finset.sum_pos' (fun j _ => by split <;> norm_num) ⟨y, Finset.mem_univ y, ?_⟩
        rw [if_pos hxy]
        norm_num
      have : (∑ i, ∑ j, if i ≠ j ∧ minkowski p (Y i) (Y j) ≤ epsilon then σ' - σ else 0) =
          (σ' - σ) * ∑ i, ∑ j, if i ≠ j ∧ minkowski p (Y i) (Y j) ≤ epsilon then (1 : ℝ) else 0 := by
        rw [Finset.mul_sum]
        refine Finset.sum_congr rfl fun i _ => ?_
        rw [Finset.mul_sum]
        exact Finset.sum_congr rfl fun j _ => by split <;> simp
      rw [this] at e4
      rcases mul_eq_zero.1 e4 with q | q
      · exact hne (by linarith)
      · exact hcount.ne' q
  rw [w, w', hσ]
  exact if_congr (by rw [π.injective.ne_iff]) rfl rfl

end

/-- **C140** Rescaling makes the graph depend on the axes: three points and the same points rotated by an angle of cosine 3/5 do not get the same weights when `rescale=True` (the default),
with the Euclidean distance and the default sigma. -/
theorem C140_rescale_rotation_violated (center : Bool) (epsilon : ℝ) {lt : LapType} (hlt : lt = .combinatorial ∨ lt = .normalized) :
    ∃ (X : Fin 3 → Fin 2 → ℝ) (R : Matrix (Fin 2) (Fin 2) ℝ) (nn : Fin 3 → List (Fin 3)) (g g' : Graph 3 ℝ) (Y Y' : Fin 3 → Fin 2 → ℝ),
      Rᵀ * R = 1 ∧ (∀ i j, X i = X j → i = j) ∧ KnnSpec 2 (fun i j => minkowski (.fin 2) (Y i) (Y j)) nn ∧ KnnSpec 2 (fun i j => minkowski (.fin 2) (Y' i) (Y' j)) nn ∧
      nnGraph X .knn center true 2 none epsilon .maximum .euclidean nn lt = .ok (g, Y) ∧
      nnGraph (fun i => R *ᵥ X i) .knn center true 2 none epsilon .maximum .euclidean nn lt = .ok (g', Y') ∧ g'.W.dense 0 1 ≠ g.W.dense 0 1 := by
  let X : Fin 3 → Fin 2 → ℝ := ![![0, 0], ![5, 0], ![0, 5]]
  let R : Matrix (Fin 2) (Fin 2) ℝ := !![3 / 5, -(4 / 5); 4 / 5, 3 / 5]
  let X' : Fin 3 → Fin 2 → ℝ := ![![0, 0], ![3, 4], ![-4, 3]]
  have hR : Rᵀ * R = 1 := by
    ext i j
    fin_cases i <;> fin_cases j <;> simp [R, Matrix.mul_apply, Fin.sum_univ_two] <;> norm_num
  have hX' : (fun i => R *ᵥ X i) = X' := by
    funext i a
    fin_cases i <;> fin_cases a <;> simp [R, X, X', Matrix.mulVec, dotProduct, Fin.sum_univ_two] <;> norm_num
  have hX : ∀ i j, X i = X j → i = j := by
    intro i j e
    have e0 := congrFun e 0
    have e1 := congrFun e 1
    fin_cases i <;> fin_cases j <;> simp_all [X]
  have hXX : ∀ i j, X' i = X' j → i = j := by
    intro i j e
    have e0 := congrFun e 0
    fin_cases i <;> fin_cases j <;> simp_all [X'] <;> norm_num at e0
  have hsup : ∀ (f : Fin 3 → ℝ) (m : Fin 3), (∀ i, f i ≤ f m) → (⨆ i, f i) = f m := fun f m h =>
    le_antisymm (ciSup_le h) (le_ciSup (Set.finite_range _).bddAbove m)
  have hinf : ∀ (f : Fin 3 → ℝ) (m : Fin 3), (∀ i, f m ≤ f i) → (⨅ i, f i) = f m := fun f m h =>
    le_antisymm (ciInf_le (Set.finite_range _).bddBelow m) (le_ciInf h)
  have b0 : boundingRadius X = 0.5 * √50 := by
    unfold boundingRadius
    rw [Fin.sum_univ_two, hsup (fun i => X i 0) 1, hsup (fun i => X i 1) 2, hinf (fun i => X i 0) 0, hinf (fun i => X i 1) 0]
    · simp [X]; norm_num
    all_goals (intro i; fin_cases i <;> simp [X])
  have b1 : boundingRadius X' = 0.5 * √65 := by
    unfold boundingRadius
    rw [Fin.sum_univ_two, hsup (fun i => X' i 0) 1, hsup (fun i => X' i 1) 1, hinf (fun i => X' i 0) 2, hinf (fun i => X' i 1) 0]
    · simp [X']; norm_num
    all_goals (intro i; fin_cases i <;> simp [X'] <;> norm_num)
  have hlt' : √(50 : ℝ) < √65 := Real.sqrt_lt_sqrt (by norm_num) (by norm_num)
  have hp : DistType.euclidean.order = .ok (.fin 2) := rfl
  have hm : ∀ s, SymMethod.maximum ≠ .other s := fun s e => by cases e
  have hd : ∀ i j, minkowski (.fin 2) (X' i) (X' j) = minkowski (.fin 2) (X i) (X j) := by
    intro i j
    rw [mink_two, mink_two, Fin.sum_univ_two, Fin.sum_univ_two]
    fin_cases i <;> fin_cases j <;> simp [X, X'] <;> norm_num
  obtain ⟨Y, hY, h⟩ := C79_returns (by norm_num) (by norm_num) hX center true (sigma := none) (by simp) epsilon (k := 2) hm hp hlt
  obtain ⟨Y', hY', h'⟩ := C79_returns (by norm_num) (by norm_num) hXX center true (sigma := none) (by simp) epsilon (k := 2) hm hp hlt
  obtain ⟨nn, hnn⟩ := exists_knn (k := 2) (N := 3) (by norm_num) (fun i j => minkowski (.fin 2) (Y i) (Y j))
  have hv := order_valid hp
  obtain ⟨r0, e0⟩ := points_true (p := .fin 2) (by norm_num) hY hv
  obtain ⟨r1, e1⟩ := points_true (p := .fin 2) (by norm_num) hY' hv
  have p0 : 0 < boundingRadius X := lt_of_le_of_ne (radius_nonneg X) (Ne.symm r0)
  have p1 : 0 < boundingRadius X' := lt_of_le_of_ne (radius_nonneg X') (Ne.symm r1)
  have hscale : ∀ i j, minkowski (.fin 2) (Y' i) (Y' j) = boundingRadius X / boundingRadius X' * minkowski (.fin 2) (Y i) (Y j) := by
    intro i j
    rw [e0, e1, hd]
    field_simp
  have hnn' : KnnSpec 2 (fun i j => minkowski (.fin 2) (Y' i) (Y' j)) nn := by
    intro i
    obtain ⟨a, b, c, e⟩ := hnn i
    have hpos : 0 < boundingRadius X / boundingRadius X' := div_pos p0 p1
    refine ⟨a, b, c.imp fun {x y} hxy => ?_, fun l hl j hj => ?_⟩
    · simp only [hscale]
      exact mul_le_mul_of_nonneg_left hxy hpos.le
    · simp only [hscale]
      exact mul_le_mul_of_nonneg_left (e l hl j hj) hpos.le
  obtain ⟨g, hg⟩ := h nn hnn
  obtain ⟨g', hg'⟩ := h' nn hnn'
  refine ⟨X, R, nn, g, g', Y, Y', hR, hX, hnn, hnn', hg, by rw [hX']; exact hg', ?_⟩
  have hbox := C140_box hd hg hg' hp hnn hX (by simp) 0 1
  obtain ⟨hn, σ, -, hσ, a, ha, -, hw, -⟩ := knn_explicit hg hp hnn hX
  obtain ⟨-, hσ⟩ := hσ rfl
  have hmem : (1 : Fin 3) ∈ (nn 0).tail.toFinset := by
    obtain ⟨n1, n2, -⟩ := hn 0
    by_contra hc
    have : (nn 0).tail.toFinset ⊆ {2} := by
      intro x hx
      fin_cases x
      · exact absurd hx n1
      · exact absurd hx hc
      · simp
    have := Finset.card_le_card this
    rw [n2] at this
    simp at this
  have hw01 := hw (Or.inl rfl) 0 1
  rw [if_pos (Or.inl hmem)] at hw01
  have hδ : 0 < minkowski (.fin 2) (Y 0) (Y 1) := by
    rw [e0]
    refine mul_pos (div_pos (nnScale_pos (by norm_num) _) p0) (lt_of_le_of_ne (mink_nonneg _ _ _) fun e => ?_)
    have := hX 0 1 ((mink_zero hv _ _).1 e.symm)
    simp at this
  have w0 : 0 < g.W.dense 0 1 := by rw [hw01]; exact Real.exp_pos _
  have w1 : g.W.dense 0 1 < 1 := by
    rw [hw01, Real.exp_lt_one_iff]
    exact div_neg_of_neg_of_pos (by nlinarith) hσ
  rw [hbox]
  have hc : boundingRadius X / boundingRadius X' < 1 := by
    rw [div_lt_one p1, b0, b1]
    nlinarith
  have := Real.rpow_lt_rpow_of_exponent_gt w0 w1 hc
  rw [Real.rpow_one] at this
  exact this.ne'

/-- **C140** Keeping one triangle makes the graph depend on the order of the points: of the points 0, 1, 3 on the line, 1 is the nearest of 3 but not conversely, and with
`symmetrize_type='tril'` the edge between them exists in this order and not in the reverse one. -/
theorem C140_triangle_violated (epsilon : ℝ) {lt : LapType} (hlt : lt = .combinatorial ∨ lt = .normalized) :
    ∃ (X : Fin 3 → Fin 1 → ℝ) (nn nn' : Fin 3 → List (Fin 3)) (g g' : Graph 3 ℝ),
      KnnSpec 1 (fun i j => minkowski (.fin 1) (X i) (X j)) nn ∧ KnnSpec 1 (fun i j => minkowski (.fin 1) (X i.rev) (X j.rev)) nn' ∧
      nnGraph X .knn false false 1 (some 1) epsilon .tril .manhattan nn lt = .ok (g, X) ∧
      nnGraph (fun i => X i.rev) .knn false false 1 (some 1) epsilon .tril .manhattan nn' lt = .ok (g', fun i => X i.rev) ∧
      0 < g.W.dense 1 2 ∧ g'.W.dense (Fin.rev 1) (Fin.rev 2) = 0 := by
  let X : Fin 3 → Fin 1 → ℝ := fun i _ => ![0, 1, 3] i
  let nn : Fin 3 → List (Fin 3) := ![[0, 1], [1, 0], [2, 1]]
  let nn' : Fin 3 → List (Fin 3) := ![[0, 1], [1, 2], [2, 1]]
  have hδ : ∀ i j, minkowski (.fin 1) (X i) (X j) = |(![0, 1, 3] : Fin 3 → ℝ) i - (![0, 1, 3] : Fin 3 → ℝ) j| := by
    intro i j
    simp [minkowski, X]
  have hs : KnnSpec 1 (fun i j => minkowski (.fin 1) (X i) (X j)) nn := by
    intro i
    simp only [hδ]
    fin_cases i <;> refine ⟨by simp [nn], by simp [nn], by simp [nn], ?_⟩ <;> intro l hl j hj <;> fin_cases l <;> fin_cases j <;>
      simp [nn] at hl hj ⊢ <;> norm_num [abs_of_neg, abs_of_pos]
  have hs' : KnnSpec 1 (fun i j => minkowski (.fin 1) (X i.rev) (X j.rev)) nn' := by
    intro i
    simp only [hδ]
    fin_cases i <;> refine ⟨by simp [nn'], by simp [nn'], by simp [nn'], ?_⟩ <;> intro l hl j hj <;> fin_cases l <;> fin_cases j <;>
      simp [nn', Fin.rev] at hl hj ⊢ <;> norm_num [abs_of_neg, abs_of_pos]
  have hX : ∀ i j, X i = X j → i = j := by
    intro i j e
    have e0 := congrFun e 0
    fin_cases i <;> fin_cases j <;> simp_all [X]
  have hX' : ∀ i j : Fin 3, X i.rev = X j.rev → i = j := fun i j e => Fin.rev_injective (hX _ _ e)
  have hp : DistType.manhattan.order = .ok (.fin 1) := rfl
  have hm : ∀ s, SymMethod.tril ≠ .other s := fun s e => by cases e
  obtain ⟨Y, hY, h⟩ := C79_returns (by norm_num) (by norm_num) hX false false (sigma := some 1) (by simp) epsilon (k := 1) hm hp hlt
  obtain ⟨Y', hY', h'⟩ := C79_returns (X := fun i => X i.rev) (by norm_num) (by norm_num) hX' false false (sigma := some 1) (by simp) epsilon (k := 1) hm hp hlt
  obtain rfl : X = Y := Except.ok.inj hY
  obtain rfl : (fun i => X i.rev) = Y' := Except.ok.inj hY'
  obtain ⟨g, hg⟩ := h nn hs
  obtain ⟨g', hg'⟩ := h' nn' hs'
  refine ⟨X, nn, nn', g, g', hs, hs', hg, hg', ?_, ?_⟩
  · obtain ⟨-, σ, -, -, a, ha, -, -, ht, -⟩ := knn_explicit hg hp hs hX
    rw [ht rfl, if_neg (by decide), ha, if_pos (by simp [nn])]
    exact Real.exp_pos _
  · obtain ⟨-, σ, -, -, a, ha, -, -, ht, -⟩ := knn_explicit hg' hp hs' hX'
    rw [ht rfl, if_pos (by decide), ha, if_neg (by simp [nn', Fin.rev])]

/-- `C140_units_knn`, `C140_more_neighbours` and `C140_order_knn` apply: 0, 1, 3, 7 on the line, no two of them at the same distance of a third one, in this unit and in another one,
with one and two neighbours, in this order and in the reverse one -/
example : ∃ (X : Fin 4 → Fin 1 → ℝ) (nn nn2 nnr : Fin 4 → List (Fin 4)) (g g' g2 gr : Graph 4 ℝ) (Y' : Fin 4 → Fin 1 → ℝ), (∀ i j, X i = X j → i = j) ∧
    (∀ i a b, minkowski (.fin 1) (X i) (X a) = minkowski (.fin 1) (X i) (X b) → a = b) ∧ KnnSpec 1 (fun i j => minkowski (.fin 1) (X i) (X j)) nn ∧
    KnnSpec 2 (fun i j => minkowski (.fin 1) (X i) (X j)) nn2 ∧ KnnSpec 1 (fun i j => minkowski (.fin 1) (X i.rev) (X j.rev)) nnr ∧
    nnGraph X .knn false false 1 (some 1) 0 .maximum .manhattan nn .combinatorial = .ok (g, X) ∧
    nnGraph (fun i a => 2 * X i a) .knn false false 1 (some 1) 0 .maximum .manhattan nn .combinatorial = .ok (g', Y') ∧
    nnGraph X .knn false false 2 (some 1) 0 .maximum .manhattan nn2 .combinatorial = .ok (g2, X) ∧
    nnGraph (fun i => X (Fin.revPerm i)) .knn false false 1 (some 1) 0 .maximum .manhattan nnr .combinatorial = .ok (gr, fun i => X (Fin.revPerm i)) := by
  let X : Fin 4 → Fin 1 → ℝ := fun i _ => ![0, 1, 3, 7] i
  have hδ : ∀ i j, minkowski (.fin 1) (X i) (X j) = |(![0, 1, 3, 7] : Fin 4 → ℝ) i - (![0, 1, 3, 7] : Fin 4 → ℝ) j| := by
    intro i j
    simp [minkowski, X]
  have hX : ∀ i j, X i = X j → i = j := by
    intro i j e
    have e0 := congrFun e 0
    fin_cases i <;> fin_cases j <;> simp_all [X]
  have ht : ∀ i a b, minkowski (.fin 1) (X i) (X a) = minkowski (.fin 1) (X i) (X b) → a = b := by
    intro i a b e
    rw [hδ, hδ] at e
    fin_cases i <;> fin_cases a <;> fin_cases b <;> first | rfl | (norm_num [abs_of_neg, abs_of_pos] at e)
  have hp : DistType.manhattan.order = .ok (.fin 1) := rfl
  have hm : ∀ s, SymMethod.maximum ≠ .other s := fun s e => by cases e
  obtain ⟨Y, hY, h⟩ := C79_returns (by norm_num) (by norm_num) hX false false (sigma := some 1) (by simp) 0 (k := 1) hm hp (.inl rfl)
  obtain ⟨Y2, hY2, h2⟩ := C79_returns (by norm_num) (by norm_num) hX false false (sigma := some 1) (by simp) 0 (k := 2) hm hp (.inl rfl)
  obtain ⟨Yr, hYr, hr⟩ := C79_returns (X := fun i => X (Fin.revPerm i)) (by norm_num) (by norm_num) (fun i j e => Fin.rev_injective (hX _ _ e)) false false
    (sigma := some 1) (by simp) 0 (k := 1) hm hp (.inl rfl)
  obtain ⟨Y', hY', h'⟩ := C79_returns (X := fun i a => 2 * X i a) (by norm_num) (by norm_num)
    (fun i j e => hX i j (funext fun a => by have := congrFun e a; simpa using this)) false false (sigma := some 1) (by simp) 0 (k := 1) hm hp (.inl rfl)
  obtain rfl : X = Y := Except.ok.inj hY
  obtain rfl : X = Y2 := Except.ok.inj hY2
  obtain rfl : (fun i => X (Fin.revPerm i)) = Yr := Except.ok.inj hYr
  obtain ⟨nn, hnn⟩ := exists_knn (k := 1) (N := 4) (by norm_num) (fun i j => minkowski (.fin 1) (X i) (X j))
  obtain ⟨nn2, hnn2⟩ := exists_knn (k := 2) (N := 4) (by norm_num) (fun i j => minkowski (.fin 1) (X i) (X j))
  obtain ⟨nnr, hnnr⟩ := exists_knn (k := 1) (N := 4) (by norm_num) (fun i j => minkowski (.fin 1) (X (Fin.revPerm i)) (X (Fin.revPerm j)))
  have hnn' : KnnSpec 1 (fun i j => minkowski (.fin 1) (Y' i) (Y' j)) nn := by
    intro i
    obtain ⟨a, b, c, e⟩ := hnn i
    have hs : ∀ i j, minkowski (.fin 1) (Y' i) (Y' j) = 2 * minkowski (.fin 1) (X i) (X j) := fun i j =>
      scaled_dist (X := X) (center := false) two_pos rfl hY' (order_valid hp) i j
    refine ⟨a, b, c.imp fun {x y} hxy => ?_, fun l hl j hj => ?_⟩
    · simp only [hs]
      exact mul_le_mul_of_nonneg_left hxy two_pos.le
    · simp only [hs]
      exact mul_le_mul_of_nonneg_left (e l hl j hj) two_pos.le
  obtain ⟨g, hg⟩ := h nn hnn
  obtain ⟨g', hg'⟩ := h' nn hnn'
  obtain ⟨g2, hg2⟩ := h2 nn2 hnn2
  obtain ⟨gr, hgr⟩ := hr nnr hnnr
  exact ⟨X, nn, nn2, nnr, g, g', g2, gr, Y', hX, ht, hnn, hnn2, hnnr, hg, hg', hg2, hgr⟩

/-- `C140_units_radius`, `C140_larger_radius`, `C140_chains`, `C140_complete` and `C140_order_radius` apply: the points 0, …, 4 on the line, epsilon being 2 or 4 -/
example : ∃ (X : Fin 5 → Fin 1 → ℝ) (g g' g2 gr : Graph 5 ℝ) (Y' : Fin 5 → Fin 1 → ℝ), (∀ i j, X i = X j → i = j) ∧
    nnGraph X .radius false false 3 none 2 .average .manhattan (fun _ => []) .combinatorial = .ok (g, X) ∧
    nnGraph (fun i a => 2 * X i a) .radius false false 3 none (2 * 2) .average .manhattan (fun _ => []) .combinatorial = .ok (g', Y') ∧
    nnGraph X .radius false false 3 (some 1) 4 .average .manhattan (fun _ => []) .combinatorial = .ok (g2, X) ∧
    (∀ i j, minkowski (.fin 1) (X i) (X j) ≤ 4) ∧
    nnGraph (fun i => X (Fin.revPerm i)) .radius false false 3 none 2 .average .manhattan (fun _ => []) .combinatorial = .ok (gr, fun i => X (Fin.revPerm i)) := by
  let X : Fin 5 → Fin 1 → ℝ := fun i _ => (i.1 : ℝ)
  have hp : DistType.manhattan.order = .ok (.fin 1) := rfl
  have hm : ∀ s, SymMethod.average ≠ .other s := fun s e => by cases e
  obtain ⟨g, hg⟩ := C79_radius_returns (X := X) (k := 3) (by norm_num) (center := false) (rescale := false) rfl (sigma := none) (by simp) (epsilon := 2) hm hp
    (fun _ => ⟨0, 2, by norm_num [minkowski, X], by norm_num [minkowski, X]⟩) (.inl rfl) fun _ => []
  obtain ⟨g', hg'⟩ := C79_radius_returns (X := fun i a => 2 * X i a) (k := 3) (by norm_num) (center := false) (rescale := false) rfl (sigma := none) (by simp) (epsilon := 2 * 2) hm hp
    (fun _ => ⟨0, 2, by norm_num [minkowski, X], by norm_num [minkowski, X]⟩) (.inl rfl) fun _ => []
  obtain ⟨g2, hg2⟩ := C79_radius_returns (X := X) (k := 3) (by norm_num) (center := false) (rescale := false) rfl (sigma := some 1) (by simp) (epsilon := 4) hm hp
    (by simp) (.inl rfl) fun _ => []
  obtain ⟨gr, hgr⟩ := C79_radius_returns (X := fun i => X (Fin.revPerm i)) (k := 3) (by norm_num) (center := false) (rescale := false) rfl (sigma := none) (by simp) (epsilon := 2) hm hp
    (fun _ => ⟨0, 2, by norm_num [minkowski, X, Fin.rev], by norm_num [minkowski, X, Fin.rev]⟩) (.inl rfl) fun _ => []
  refine ⟨X, g, g', g2, gr, _, fun i j e => Fin.ext (by have := congrFun e 0; simp only [X] at this; exact_mod_cast this), hg, hg', hg2, fun i j => ?_, hgr⟩
  have : minkowski (.fin 1) (X i) (X j) = |((i.1 : ℝ)) - j.1| := by simp [minkowski, X]
  rw [this, abs_le]
  have h1 : (i.1 : ℝ) ≤ 4 := by exact_mod_cast Nat.lt_succ_iff.1 i.2
  have h2 : (j.1 : ℝ) ≤ 4 := by exact_mod_cast Nat.lt_succ_iff.1 j.2
  have h3 : (0 : ℝ) ≤ i.1 := Nat.cast_nonneg _
  have h4 : (0 : ℝ) ≤ j.1 := Nat.cast_nonneg _
  constructor <;> linarith

end PyGSP
