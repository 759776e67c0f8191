import Verif.Model.NNGraph
import Verif.Props.Torus

/-!
# C79: NNGraph
-/

namespace PyGSP

open Matrix Spec Gen

variable {N d : ℕ}

namespace Gen

/-! ### Minkowski distances -/

def MinkP.Valid : MinkP → Prop
  | .fin p => 1 ≤ p
  | .inf => True

theorem order_valid {dist : DistType} {p : MinkP} (h : dist.order = .ok p) : p.Valid := by
  unfold DistType.order at h
  cases dist with
  | minkowski q =>
    simp only at h
    split at h
    · cases h
    · cases h; exact not_lt.1 ‹_›
  | _ => cases h <;> norm_num [MinkP.Valid]

theorem mink_symm (p : MinkP) (x y : Fin d → ℝ) : minkowski p x y = minkowski p y x := by
  cases p <;> simp only [minkowski, abs_sub_comm]

theorem mink_nonneg (p : MinkP) (x y : Fin d → ℝ) : 0 ≤ minkowski p x y := by
  cases p
  · exact Real.rpow_nonneg (Finset.sum_nonneg fun a _ => Real.rpow_nonneg (abs_nonneg _) _) _
  · exact Real.iSup_nonneg fun a => abs_nonneg _

theorem mink_zero {p : MinkP} (hp : p.Valid) (x y : Fin d → ℝ) : minkowski p x y = 0 ↔ x = y := by
  cases p with
  | fin p =>
    have hp : 1 ≤ p := hp
    have hpos : (0 : ℝ) ≤ ∑ a, |x a - y a| ^ p := Finset.sum_nonneg fun a _ => Real.rpow_nonneg (abs_nonneg _) _
    simp only [minkowski]
    rw [Real.rpow_eq_zero hpos (by positivity), Finset.sum_eq_zero_iff_of_nonneg fun a _ => Real.rpow_nonneg (abs_nonneg _) _, funext_iff]
    refine forall_congr' fun a => ?_
    simp only [Finset.mem_univ, true_implies]
    rw [Real.rpow_eq_zero (abs_nonneg _) (by linarith), abs_eq_zero, sub_eq_zero]
  | inf =>
    simp only [minkowski]
    constructor
    · intro h
      funext a
      have := le_ciSup (f := fun a => |x a - y a|) (Set.finite_range _).bddAbove a
      rw [h] at this
      exact sub_eq_zero.1 (abs_nonpos_iff.1 this)
    · rintro rfl
      simp

theorem mink_affine (p : MinkP) (hp : p.Valid) {c : ℝ} (hc : 0 ≤ c) (s x y : Fin d → ℝ) :
    minkowski p (fun a => c * (x a - s a)) (fun a => c * (y a - s a)) = c * minkowski p x y := by
  have h : ∀ a, |c * (x a - s a) - c * (y a - s a)| = c * |x a - y a| := by
    intro a
    rw [← mul_sub, sub_sub_sub_cancel_right, abs_mul, abs_of_nonneg hc]
  cases p with
  | fin p =>
    have hp : 1 ≤ p := hp
    simp only [minkowski, h]
    rw [Finset.sum_congr rfl fun a _ => Real.mul_rpow hc (abs_nonneg _), ← Finset.mul_sum,
      Real.mul_rpow (Real.rpow_nonneg hc _) (Finset.sum_nonneg fun a _ => Real.rpow_nonneg (abs_nonneg _) _), ← Real.rpow_mul hc,
      mul_one_div_cancel (by linarith), Real.rpow_one]
  | inf =>
    simp only [minkowski, h]
    exact (Real.mul_iSup_of_nonneg hc _).symm

/-! ### the points -/

theorem nnScale_pos (hN : 0 < N) (d : ℕ) : 0 < nnScale N d := by
  unfold nnScale
  have : (0 : ℝ) < N := by exact_mod_cast hN
  positivity

theorem radius_nonneg (X : Fin N → Fin d → ℝ) : 0 ≤ boundingRadius X := by
  unfold boundingRadius
  positivity

/-- the coordinates are an affine function of the points -/
theorem points_affine (hN : 0 < N) {center rescale : Bool} {X Y : Fin N → Fin d → ℝ} (h : nnPoints center rescale X = .ok Y) :
    ∃ c > 0, ∃ s : Fin d → ℝ, ∀ i, Y i = fun a => c * (X i a - s a) := by
  have h0 : ∃ s : Fin d → ℝ, ∀ i, (if center then nnCenter X else X) i = fun a => X i a - s a := by
    cases center
    · exact ⟨0, fun i => by simp⟩
    · exact ⟨fun a => (∑ l, X l a) / N, fun i => rfl⟩
  obtain ⟨s, hs⟩ := h0
  unfold nnPoints at h
  revert hs h
  generalize (if center then nnCenter X else X) = Z
  intro h hs
  cases rescale
  · simp only [Bool.false_eq_true, if_false] at h
    cases h
    exact ⟨1, one_pos, s, fun i => by rw [hs]; simp⟩
  · simp only [if_true] at h
    unfold nnRescale at h
    split at h
    · cases h
    split at h
    · cases h
    rename_i hne
    cases h
    refine ⟨nnScale N d / boundingRadius Z, div_pos (nnScale_pos hN d) (lt_of_le_of_ne (radius_nonneg _) (Ne.symm hne)), s, fun i => ?_⟩
    funext a
    beta_reduce
    rw [hs i]
    ring

/-! ### the neighbours -/

theorem nnWeights_apply (δ : Fin N → Fin N → ℝ) (σ : ℝ) {nb : Fin N → List (Fin N)} (h : ∀ i, (nb i).Nodup) (i j : Fin N) :
    nnWeights δ σ nb i j = if j ∈ nb i then Real.exp (-(δ i j) ^ 2 / σ) else 0 := by
  unfold nnWeights
  simp only [Matrix.of_apply]
  have := h i
  revert this
  generalize nb i = l
  intro hl
  induction l with
  | nil => simp
  | cons a l ih =>
    rw [List.map_cons, List.sum_cons, ih (List.nodup_cons.1 hl).2]
    by_cases q : a = j
    · subst q
      rw [if_pos rfl, if_neg (List.nodup_cons.1 hl).1, if_pos List.mem_cons_self, add_zero]
    · rw [if_neg q, zero_add]
      exact if_congr (by simp [List.mem_cons, Ne.symm q]) rfl rfl

/-- the first point found is the point itself when no two points coincide -/
theorem knn_head {k : ℕ} {δ : Fin N → Fin N → ℝ} {nn : Fin N → List (Fin N)} (hk : KnnSpec k δ nn) (hpos : ∀ i j, 0 ≤ δ i j)
    (h0 : ∀ i j, δ i j = 0 ↔ i = j) (i : Fin N) : ∃ l, nn i = i :: l ∧ l.Nodup ∧ i ∉ l ∧ l.length = k ∧
      ∀ a ∈ l, ∀ j ∉ l, j ≠ i → δ i a ≤ δ i j := by
  obtain ⟨h1, h2, h3, h4⟩ := hk i
  match hnn : nn i with
  | [] => rw [hnn] at h2; simp at h2
  | a :: l =>
    rw [hnn] at h1 h2 h3 h4
    have hi : δ i i = 0 := (h0 i i).2 rfl
    have ha : a = i := by
      have : δ i a ≤ δ i i := by
        by_cases q : i ∈ a :: l
        · rcases List.mem_cons.1 q with q | q
          · rw [q]
          · exact (List.pairwise_cons.1 h3).1 i q
        · exact h4 a List.mem_cons_self i q
      exact ((h0 i a).1 (le_antisymm (this.trans hi.le) (hpos _ _))).symm
    subst ha
    refine ⟨l, rfl, (List.nodup_cons.1 h1).2, (List.nodup_cons.1 h1).1, by simpa using h2, fun b hb j hj hji => ?_⟩
    exact h4 b (List.mem_cons_of_mem _ hb) j (by simp [hj, hji])

/-! ### unfolding -/

theorem nnGraph_ok {X : Fin N → Fin d → ℝ} {type : NNType} {center rescale : Bool} {k : ℕ} {sigma : Option ℝ} {epsilon : ℝ} {method : SymMethod}
    {dist : DistType} {nn : Fin N → List (Fin N)} {lt : LapType} {g : Graph N ℝ} {Y : Fin N → Fin d → ℝ}
    (h : nnGraph X type center rescale k sigma epsilon method dist nn lt = .ok (g, Y)) :
    k < N ∧ nnPoints center rescale X = .ok Y ∧ ∃ p W S, dist.order = .ok p ∧
      ((type = .knn ∧ nnKnn k sigma (fun i j => minkowski p (Y i) (Y j)) nn = .ok W) ∨
        (type = .radius ∧ nnRadius epsilon sigma (fun i j => minkowski p (Y i) (Y j)) = .ok W)) ∧
      symmetrize true W method = .ok S ∧ g.Built ∧ g.W.dense = S := by
  unfold nnGraph at h
  split at h
  · cases h
  rename_i hk
  refine ⟨by omega, ?_⟩
  match hY : nnPoints center rescale X, h with
  | .error e, h => cases h
  | .ok Y', h =>
    match hp : dist.order, type, h with
    | .error e, .knn, h => cases h
    | .error e, .radius, h => cases h
    | _, .other _, h => cases h
    | .ok p, .knn, h =>
      match hW : nnKnn k sigma (fun i j => minkowski p (Y' i) (Y' j)) nn, h with
      | .error e, h => simp [bind, Except.bind, hp, hW] at h
      | .ok W, h =>
        match hS : symmetrize true W method, h with
        | .error e, h => simp [bind, Except.bind, hp, hW, hS] at h
        | .ok S, h =>
          match hg : Graph.ofCsr (Sp.ofDense S) lt, h with
          | .error e, h => simp [bind, Except.bind, hp, hW, hS, hg] at h
          | .ok g', h =>
            simp only [bind, Except.bind, hp, hW, hS, hg, Except.ok.injEq, Prod.mk.injEq] at h
            obtain ⟨rfl, rfl⟩ := h
            obtain ⟨g2, e1, e2, e3, -⟩ := Graph.ofCsr_canonical _ (Sp.canonical_ofDense S) (Graph.ofCsr_ok hg).2.2.2
            obtain rfl := Except.ok.inj (e1.symm.trans hg)
            rw [Sp.dense_ofDense] at e3
            exact ⟨rfl, p, W, S, rfl, .inl ⟨rfl, hW⟩, hS, e2, e3⟩
    | .ok p, .radius, h =>
      match hW : nnRadius epsilon sigma (fun i j => minkowski p (Y' i) (Y' j)), h with
      | .error e, h => simp [bind, Except.bind, hp, hW] at h
      | .ok W, h =>
        match hS : symmetrize true W method, h with
        | .error e, h => simp [bind, Except.bind, hp, hW, hS] at h
        | .ok S, h =>
          match hg : Graph.ofCsr (Sp.ofDense S) lt, h with
          | .error e, h => simp [bind, Except.bind, hp, hW, hS, hg] at h
          | .ok g', h =>
            simp only [bind, Except.bind, hp, hW, hS, hg, Except.ok.injEq, Prod.mk.injEq] at h
            obtain ⟨rfl, rfl⟩ := h
            obtain ⟨g2, e1, e2, e3, -⟩ := Graph.ofCsr_canonical _ (Sp.canonical_ofDense S) (Graph.ofCsr_ok hg).2.2.2
            obtain rfl := Except.ok.inj (e1.symm.trans hg)
            rw [Sp.dense_ofDense] at e3
            exact ⟨rfl, p, W, S, rfl, .inr ⟨rfl, hW⟩, hS, e2, e3⟩

end Gen


section

variable {X : Fin N → Fin d → ℝ} {center rescale : Bool} {k : ℕ} {sigma : Option ℝ} {epsilon : ℝ} {method : SymMethod}
  {dist : DistType} {nn : Fin N → List (Fin N)} {lt : LapType} {g : Graph N ℝ} {Y : Fin N → Fin d → ℝ}

/-- the same, the neighbours being the search results but the first -/
theorem knn_explicit (h : nnGraph X .knn center rescale k sigma epsilon method dist nn lt = .ok (g, Y)) {p : MinkP} (hp : dist.order = .ok p)
    (hnn : KnnSpec k (fun i j => minkowski p (Y i) (Y j)) nn) (hX : ∀ i j, X i = X j → i = j) :
      (∀ i, i ∉ (nn i).tail.toFinset ∧ ((nn i).tail.toFinset).card = k ∧
        ∀ l ∈ (nn i).tail.toFinset, ∀ j ∉ (nn i).tail.toFinset, j ≠ i → minkowski p (Y i) (Y l) ≤ minkowski p (Y i) (Y j)) ∧
      ∃ σ, (∀ s, sigma = some s → σ = s) ∧ (sigma = none → σ = (∑ i, ∑ l ∈ (nn i).tail.toFinset, minkowski p (Y i) (Y l)) / (N * k) ∧ 0 < σ) ∧
        ∃ a : Matrix (Fin N) (Fin N) ℝ, (∀ i j, a i j = if j ∈ (nn i).tail.toFinset then Real.exp (-(minkowski p (Y i) (Y j)) ^ 2 / σ) else 0) ∧
          (method = .average → ∀ i j, g.W.dense i j = (a i j + a j i) / 2) ∧
          (method = .maximum ∨ method = .fill → ∀ i j, g.W.dense i j =
            if j ∈ (nn i).tail.toFinset ∨ i ∈ (nn j).tail.toFinset then Real.exp (-(minkowski p (Y i) (Y j)) ^ 2 / σ) else 0) ∧
          (method = .tril → ∀ i j, g.W.dense i j = if j ≤ i then a i j else a j i) ∧
          (method = .triu → ∀ i j, g.W.dense i j = if i ≤ j then a i j else a j i) := by
  obtain ⟨hk, hY, p', W, S, hp', hW, hS, -, hg⟩ := nnGraph_ok h
  rw [hp] at hp'
  obtain rfl := (Except.ok.inj hp')
  have hv := order_valid hp
  rcases hW with ⟨-, hW⟩ | ⟨q, -⟩
  swap
  · cases q
  obtain ⟨c, hc, s, hs⟩ := points_affine (by omega) hY
  have h0 : ∀ i j, minkowski p (Y i) (Y j) = 0 ↔ i = j := by
    intro i j
    rw [hs i, hs j, mink_affine p hv hc.le, mul_eq_zero, or_iff_right hc.ne', mink_zero hv]
    exact ⟨hX i j, fun e => by rw [e]⟩
  have hhead := knn_head hnn (fun i j => mink_nonneg p _ _) h0
  have htail : ∀ i, (nn i).tail.Nodup ∧ i ∉ (nn i).tail ∧ (nn i).tail.length = k ∧
      ∀ a ∈ (nn i).tail, ∀ j ∉ (nn i).tail, j ≠ i → minkowski p (Y i) (Y a) ≤ minkowski p (Y i) (Y j) := by
    intro i
    obtain ⟨l, e, q⟩ := hhead i
    rw [e, List.tail_cons]
    exact q
  unfold nnKnn at hW
  split at hW
  · cases hW
  rename_i hk0
  simp only at hW
  split at hW
  · cases hW
  rename_i hσ
  have hW := (Except.ok.inj hW).symm
  have hWa := fun i j => nnWeights_apply (fun i j => minkowski p (Y i) (Y j)) (sigma.getD (nnMean (fun i j => minkowski p (Y i) (Y j)) fun i => (nn i).tail))
    (nb := fun i => (nn i).tail) (fun i => (htail i).1) i j
  rw [← hW] at hWa
  have hmem : ∀ i j, j ∈ (nn i).tail.toFinset ↔ j ∈ (nn i).tail := fun i j => List.mem_toFinset
  refine ⟨fun i => ⟨?_, ?_, ?_⟩,
    sigma.getD (nnMean (fun i j => minkowski p (Y i) (Y j)) fun i => (nn i).tail), fun s e => ?_, fun e => ?_, W, fun i j => ?_, fun e => ?_, fun e => ?_, fun e => ?_, fun e => ?_⟩
  · rw [hmem]; exact (htail i).2.1
  · rw [List.toFinset_card_of_nodup (htail i).1]; exact (htail i).2.2.1
  · intro l hl j hj
    exact (htail i).2.2.2 l ((hmem _ _).1 hl) j (fun q => hj ((hmem _ _).2 q))
  · rw [e]; rfl
  · subst e
    have e1 : (none : Option ℝ).getD (nnMean (fun i j => minkowski p (Y i) (Y j)) fun i => (nn i).tail) = (∑ i, ∑ l ∈ (nn i).tail.toFinset, minkowski p (Y i) (Y l)) / (N * k) := by
      rw [Option.getD_none, nnMean]
      congr 1
      · exact Finset.sum_congr rfl fun i _ => (List.sum_toFinset _ (htail i).1).symm
      · rw [Finset.sum_congr rfl fun i _ => (htail i).2.2.1]
        simp
    refine ⟨e1, ?_⟩
    refine lt_of_le_of_ne ?_ (Ne.symm hσ)
    rw [e1]
    exact div_nonneg (Finset.sum_nonneg fun i _ => Finset.sum_nonneg fun l _ => mink_nonneg p _ _) (by positivity)
  · rw [hWa]
    exact if_congr (hmem i j).symm rfl rfl
  all_goals
    obtain ⟨⟨S1, h1, h1'⟩, ⟨S2, h2, h2'⟩, h3, h4, h5⟩ := C53_values true W
    have hn : NonnegW W := fun i j => by
      rw [hWa]; split
      · exact (Real.exp_pos _).le
      · exact le_rfl
    obtain ⟨S3, h3, h3'⟩ := h3 hn
    obtain ⟨S4, h4, h4'⟩ := h4 hn
    obtain ⟨S5, h5, h5'⟩ := h5 hn
    intro i j
    rw [hg]
  · subst e
    obtain rfl := Except.ok.inj (h1.symm.trans hS)
    exact h1' i j
  · have hsym : ∀ i j : Fin N, minkowski p (Y i) (Y j) = minkowski p (Y j) (Y i) := fun i j => mink_symm p _ _
    simp only [hmem]
    rcases e with rfl | rfl
    · obtain rfl := Except.ok.inj (h2.symm.trans hS)
      rw [h2', hWa, hWa, hsym j i]
      by_cases q1 : j ∈ (nn i).tail <;> by_cases q2 : i ∈ (nn j).tail <;> simp [q1, q2, (Real.exp_pos _).le]
    · obtain rfl := Except.ok.inj (h3.symm.trans hS)
      rw [h3', hWa, hWa, hsym j i]
      by_cases q1 : j ∈ (nn i).tail <;> by_cases q2 : i ∈ (nn j).tail <;> simp [q1, q2, (Real.exp_pos _).ne']
  · subst e
    obtain rfl := Except.ok.inj (h4.symm.trans hS)
    exact h4' i j
  · subst e
    obtain rfl := Except.ok.inj (h5.symm.trans hS)
    exact h5' i j

/-- **`NNGraph(X, 'knn')` of points that do not coincide** connects every vertex to its `k` nearest neighbours with the weights `exp(-d² / σ)`, where `d` is the
distance of the coordinates and `σ` is `sigma` or the mean distance of the neighbours; `a i j` is made symmetric by the chosen method. -/
theorem C79_knn (h : nnGraph X .knn center rescale k sigma epsilon method dist nn lt = .ok (g, Y)) {p : MinkP} (hp : dist.order = .ok p)
    (hnn : KnnSpec k (fun i j => minkowski p (Y i) (Y j)) nn) (hX : ∀ i j, X i = X j → i = j) :
    ∃ nearest : Fin N → Finset (Fin N),
      (∀ i, i ∉ nearest i ∧ (nearest i).card = k ∧
        ∀ l ∈ nearest i, ∀ j ∉ nearest i, j ≠ i → minkowski p (Y i) (Y l) ≤ minkowski p (Y i) (Y j)) ∧
      ∃ σ, (∀ s, sigma = some s → σ = s) ∧ (sigma = none → σ = (∑ i, ∑ l ∈ nearest i, minkowski p (Y i) (Y l)) / (N * k) ∧ 0 < σ) ∧
        ∃ a : Matrix (Fin N) (Fin N) ℝ, (∀ i j, a i j = if j ∈ nearest i then Real.exp (-(minkowski p (Y i) (Y j)) ^ 2 / σ) else 0) ∧
          (method = .average → ∀ i j, g.W.dense i j = (a i j + a j i) / 2) ∧
          (method = .maximum ∨ method = .fill → ∀ i j, g.W.dense i j =
            if j ∈ nearest i ∨ i ∈ nearest j then Real.exp (-(minkowski p (Y i) (Y j)) ^ 2 / σ) else 0) ∧
          (method = .tril → ∀ i j, g.W.dense i j = if j ≤ i then a i j else a j i) ∧
          (method = .triu → ∀ i j, g.W.dense i j = if i ≤ j then a i j else a j i) :=
  ⟨_, knn_explicit h hp hnn hX⟩

/-- **The k-nearest-neighbours graph** of points that do not coincide is undirected, without self-loops; with a positive `σ` its weights are between zero and
one, and unless only a triangle is kept every vertex has at least `k` neighbours. -/
theorem C79_knn_structure (h : nnGraph X .knn center rescale k sigma epsilon method dist nn lt = .ok (g, Y)) {p : MinkP} (hp : dist.order = .ok p)
    (hnn : KnnSpec k (fun i j => minkowski p (Y i) (Y j)) nn) (hX : ∀ i j, X i = X j → i = j) (hσ : ∀ s, sigma = some s → 0 < s) :
    g.Built ∧ Undirected g.W.dense ∧ (∀ i, g.W.dense i i = 0) ∧ (∀ i j, 0 ≤ g.W.dense i j ∧ g.W.dense i j ≤ 1) ∧
      (method = .average ∨ method = .maximum ∨ method = .fill → ∀ i, k ≤ (Finset.univ.filter fun j => g.W.dense i j ≠ 0).card) := by
  obtain ⟨nearest, n1, σ, s1, s2, a, ha, m1, m2, m3, m4⟩ := C79_knn h hp hnn hX
  obtain ⟨hk, hY, p', W, S, hp', hW, hS, hb, hg⟩ := nnGraph_ok h
  have hpos : 0 < σ := by
    cases hs : sigma with
    | none => exact (s2 hs).2
    | some s => rw [s1 s hs]; exact hσ s hs
  have ha01 : ∀ i j, 0 ≤ a i j ∧ a i j ≤ 1 := by
    intro i j
    rw [ha]
    split
    · refine ⟨(Real.exp_pos _).le, Real.exp_le_one_iff.2 ?_⟩
      exact div_nonpos_of_nonpos_of_nonneg (neg_nonpos.2 (sq_nonneg _)) hpos.le
    · exact ⟨le_rfl, zero_le_one⟩
  have haii : ∀ i, a i i = 0 := fun i => by rw [ha, if_neg (n1 i).1]
  have hcases : method = .average ∨ (method = .maximum ∨ method = .fill) ∨ method = .tril ∨ method = .triu := by
    cases method with
    | other s =>
      have := (C53_errors true W (.other s)).1 (.inr ⟨s, rfl⟩)
      rw [this] at hS
      cases hS
    | _ => tauto
  have hmax : method = .maximum ∨ method = .fill → ∀ i j, g.W.dense i j = max (a i j) (a j i) := by
    intro q i j
    rw [m2 q, ha, ha, mink_symm p (Y j) (Y i)]
    by_cases q1 : j ∈ nearest i <;> by_cases q2 : i ∈ nearest j <;> simp [q1, q2, (Real.exp_pos _).le]
  refine ⟨hb, ?_, ?_, ?_, ?_⟩
  · intro i j
    rw [hg]
    exact C53_symmetric true W S method hS i j
  · intro i
    rcases hcases with q | q | q | q
    · rw [m1 q, haii]; norm_num
    · rw [hmax q, haii]; simp
    · rw [m3 q, if_pos le_rfl, haii]
    · rw [m4 q, if_pos le_rfl, haii]
  · intro i j
    have h1 := ha01 i j
    have h2 := ha01 j i
    rcases hcases with q | q | q | q
    · rw [m1 q]; constructor <;> linarith
    · rw [hmax q]; exact ⟨le_max_of_le_left h1.1, max_le h1.2 h2.2⟩
    · rw [m3 q]; split <;> assumption
    · rw [m4 q]; split <;> assumption
  · intro q i
    rw [← (n1 i).2.1]
    refine Finset.card_le_card fun j hj => Finset.mem_filter.2 ⟨Finset.mem_univ _, ?_⟩
    have hpos' : 0 < a i j := by rw [ha, if_pos hj]; exact Real.exp_pos _
    have h2 := (ha01 j i).1
    rcases q with q | q
    · rw [m1 q]; have : 0 < (a i j + a j i) / 2 := by linarith
      exact this.ne'
    · rw [hmax q]; exact (lt_max_of_lt_left hpos').ne'

open Classical in
/-- **`NNGraph(X, 'radius')`** connects two different vertices exactly when the distance of their coordinates is at most `epsilon`, with the weight `exp(-d² / σ)`, for
every method of symmetrization; `σ` is `sigma` or the mean distance of the connected pairs. -/
theorem C79_radius (h : nnGraph X .radius center rescale k sigma epsilon method dist nn lt = .ok (g, Y)) :
    g.Built ∧ Undirected g.W.dense ∧ ∃ p σ, dist.order = .ok p ∧ (∀ s, sigma = some s → σ = s) ∧
      (sigma = none → 0 < σ ∧
        (∑ i, ∑ j, if i ≠ j ∧ minkowski p (Y i) (Y j) ≤ epsilon then minkowski p (Y i) (Y j) - σ else 0) = 0) ∧
      ∀ i j, g.W.dense i j = if i ≠ j ∧ minkowski p (Y i) (Y j) ≤ epsilon then Real.exp (-(minkowski p (Y i) (Y j)) ^ 2 / σ) else 0 := by
  obtain ⟨hk, hY, p, W, S, hp, hW, hS, hb, hg⟩ := nnGraph_ok h
  have hv := order_valid hp
  rcases hW with ⟨q, -⟩ | ⟨-, hW⟩
  · cases q
  unfold nnRadius at hW
  simp only at hW
  split at hW
  · cases hW
  rename_i hnone
  split at hW
  · cases hW
  rename_i hσ
  have hW := (Except.ok.inj hW).symm
  set nb : Fin N → List (Fin N) := fun i => ((List.finRange N).filter fun j => decide (minkowski p (Y i) (Y j) ≤ epsilon)).filter fun j => decide (j ≠ i) with hnb
  have hnd : ∀ i, (nb i).Nodup := fun i => ((List.nodup_finRange N).filter _).filter _
  have hmem : ∀ i j, j ∈ nb i ↔ i ≠ j ∧ minkowski p (Y i) (Y j) ≤ epsilon := by
    intro i j
    simp only [hnb, List.mem_filter, List.mem_finRange, true_and, decide_eq_true_eq]
    rw [and_comm]
    exact and_congr_left' ⟨fun q => q.symm, fun q => q.symm⟩
  have hWa := fun i j => nnWeights_apply (fun i j => minkowski p (Y i) (Y j)) (sigma.getD (nnMean (fun i j => minkowski p (Y i) (Y j)) nb)) hnd i j
  rw [← hW] at hWa
  have hWu : Undirected W := by
    intro i j
    rw [hWa, hWa]
    simp only [hmem, mink_symm p (Y i) (Y j)]
    exact if_congr (and_congr_left' ⟨fun q => q.symm, fun q => q.symm⟩) rfl rfl
  have hn : NonnegW W := fun i j => by
    rw [hWa]; split
    · exact (Real.exp_pos _).le
    · exact le_rfl
  have hSW : S = W := C53_identity_on_symmetric true W S method hWu (.inr (.inr hn)) hS
  refine ⟨hb, by rw [hg, hSW]; exact hWu, p, sigma.getD (nnMean (fun i j => minkowski p (Y i) (Y j)) nb), hp, fun s e => by rw [e]; rfl, fun e => ?_, fun i j => ?_⟩
  · subst e
    have hcount : ∃ i, nb i ≠ [] := by
      by_contra q
      push Not at q
      exact hnone ⟨rfl, q⟩
    have hlen : (0 : ℝ) < ((∑ i, (nb i).length : ℕ) : ℝ) := by
      obtain ⟨i, hi⟩ := hcount
      have h1 : 0 < (nb i).length := List.length_pos_iff.2 hi
      have h2 := Finset.single_le_sum (f := fun i => (nb i).length) (fun _ _ => Nat.zero_le _) (Finset.mem_univ i)
      exact_mod_cast lt_of_lt_of_le h1 h2
    rw [Option.getD_none] at hσ ⊢
    have hsum : ∀ (f : Fin N → Fin N → ℝ) (i : Fin N), ((nb i).map (f i)).sum = ∑ j, if i ≠ j ∧ minkowski p (Y i) (Y j) ≤ epsilon then f i j else 0 := by
      intro f i
      rw [← List.sum_toFinset _ (hnd i), ← Finset.sum_filter]
      refine Finset.sum_congr ?_ fun _ _ => rfl
      ext j
      simp [hmem]
    refine ⟨lt_of_le_of_ne ?_ (Ne.symm hσ), ?_⟩
    · refine div_nonneg (Finset.sum_nonneg fun i _ => List.sum_nonneg ?_) hlen.le
      intro x hx
      obtain ⟨l, -, rfl⟩ := List.mem_map.1 hx
      exact mink_nonneg p _ _
    · generalize hm : nnMean (fun i j => minkowski p (Y i) (Y j)) nb = σ
      rw [← Finset.sum_congr rfl fun i _ => hsum (fun i j => minkowski p (Y i) (Y j) - σ) i]
      have h1 : ∀ i, ((nb i).map fun j => minkowski p (Y i) (Y j) - σ).sum = ((nb i).map fun j => minkowski p (Y i) (Y j)).sum - (nb i).length * σ := by
        intro i
        induction nb i with
        | nil => simp
        | cons b l ih => simp only [List.map_cons, List.sum_cons, ih, List.length_cons]; push_cast; ring
      rw [Finset.sum_congr rfl fun i _ => h1 i, Finset.sum_sub_distrib, ← Finset.sum_mul]
      rw [nnMean] at hm
      have h2 := (div_eq_iff hlen.ne').1 hm
      push_cast at h2
      rw [h2]; ring
  · rw [hg, hSW, hWa]
    exact if_congr (hmem i j) rfl rfl

end


namespace Gen

/-! ### rescaling -/

theorem box_le {X : Fin N → Fin d → ℝ} (i j : Fin N) (a : Fin d) : |X i a - X j a| ≤ (⨆ i, X i a) - ⨅ i, X i a := by
  have h1 := fun i => le_ciSup (f := fun i => X i a) (Set.finite_range _).bddAbove i
  have h2 := fun i => ciInf_le (f := fun i => X i a) (Set.finite_range _).bddBelow i
  rw [abs_le]
  have := h1 i; have := h1 j; have := h2 i; have := h2 j
  constructor <;> linarith

theorem mink_two (x y : Fin d → ℝ) : minkowski (.fin 2) x y = √(∑ a, (x a - y a) ^ 2) := by
  simp only [minkowski, Real.sqrt_eq_rpow]
  congr 2
  funext a
  rw [show ((2 : ℝ)) = ((2 : ℕ) : ℝ) by norm_num, Real.rpow_natCast, sq_abs]

theorem dist_le_box (X : Fin N → Fin d → ℝ) (i j : Fin N) : minkowski (.fin 2) (X i) (X j) ≤ 2 * boundingRadius X := by
  rw [mink_two, boundingRadius]
  have : √(∑ a, (X i a - X j a) ^ 2) ≤ √(∑ a, ((⨆ i, X i a) - ⨅ i, X i a) ^ 2) := by
    refine Real.sqrt_le_sqrt (Finset.sum_le_sum fun a _ => ?_)
    rw [← sq_abs (X i a - X j a)]
    exact pow_le_pow_left₀ (abs_nonneg _) (box_le i j a) 2
  linarith

theorem radius_pos {X : Fin N → Fin d → ℝ} {i j : Fin N} (h : X i ≠ X j) : boundingRadius X ≠ 0 := by
  intro e
  have h1 := dist_le_box X i j
  rw [e, mul_zero] at h1
  exact h ((mink_zero (p := .fin 2) (by norm_num [MinkP.Valid]) _ _).1 (le_antisymm h1 (mink_nonneg _ _ _)))

theorem radius_affine (hN : 0 < N) {c : ℝ} (hc : 0 < c) (X : Fin N → Fin d → ℝ) : boundingRadius (fun i a => c * X i a) = c * boundingRadius X := by
  haveI : Nonempty (Fin N) := ⟨⟨0, hN⟩⟩
  unfold boundingRadius
  have : ∀ a, (⨆ i, c * X i a) - (⨅ i, c * X i a) = c * ((⨆ i, X i a) - ⨅ i, X i a) := by
    intro a
    rw [← Real.mul_iSup_of_nonneg hc.le, ← Real.mul_iInf_of_nonneg hc.le]
    ring
  simp only [this, mul_pow]
  rw [← Finset.mul_sum, Real.sqrt_mul (sq_nonneg _), Real.sqrt_sq hc.le]
  ring

theorem center_affine (hN : 0 < N) (c : ℝ) (s : Fin d → ℝ) (X : Fin N → Fin d → ℝ) :
    nnCenter (fun i a => c * (X i a - s a)) = fun i a => c * nnCenter X i a := by
  have : (N : ℝ) ≠ 0 := by exact_mod_cast hN.ne'
  funext i a
  unfold nnCenter
  rw [← Finset.mul_sum, Finset.sum_sub_distrib, Finset.sum_const, Finset.card_univ, Fintype.card_fin, nsmul_eq_mul]
  field_simp
  ring

theorem rescale_scale (hN : 0 < N) {c : ℝ} (hc : 0 < c) (Z : Fin N → Fin d → ℝ) : nnRescale (fun i a => c * Z i a) = nnRescale Z := by
  unfold nnRescale
  rw [radius_affine hN hc]
  by_cases h1 : d = 0
  · rw [if_pos h1, if_pos h1]
  rw [if_neg h1, if_neg h1]
  by_cases h2 : boundingRadius Z = 0
  · rw [if_pos h2, if_pos (by rw [h2, mul_zero])]
  rw [if_neg h2, if_neg (by simp [hc.ne', h2])]
  refine congrArg Except.ok ?_
  funext i a
  have := hc.ne'
  field_simp

/-- a nearest-neighbour search exists -/
theorem exists_knn {k : ℕ} (hk : k < N) (δ : Fin N → Fin N → ℝ) : ∃ nn, KnnSpec k δ nn := by
  classical
  let srt : Fin N → List (Fin N) := fun i => (List.finRange N).mergeSort fun a b => decide (δ i a ≤ δ i b)
  have hs : ∀ i, (srt i).Pairwise fun a b => δ i a ≤ δ i b := by
    intro i
    have := List.pairwise_mergeSort (le := fun a b => decide (δ i a ≤ δ i b)) (fun a b c h1 h2 => by
      simp only [decide_eq_true_eq] at *; exact h1.trans h2) (fun a b => by
      simp only [Bool.or_eq_true, decide_eq_true_eq]; exact le_total _ _) (List.finRange N)
    exact this.imp fun h => by simpa using h
  have hperm : ∀ i, (srt i).Perm (List.finRange N) := fun i => List.mergeSort_perm _ _
  refine ⟨fun i => (srt i).take (k + 1), fun i => ⟨?_, ?_, ?_, fun l hl j hj => ?_⟩⟩
  · exact ((hperm i).nodup_iff.2 (List.nodup_finRange N)).sublist (List.take_sublist _ _)
  · rw [List.length_take, (hperm i).length_eq, List.length_finRange]; omega
  · exact (hs i).sublist (List.take_sublist _ _)
  · have hj2 : j ∈ (srt i).drop (k + 1) := by
      have : j ∈ (srt i).take (k + 1) ++ (srt i).drop (k + 1) := by
        rw [List.take_append_drop]; exact (hperm i).mem_iff.2 (List.mem_finRange j)
      exact (List.mem_append.1 this).resolve_left hj
    have := hs i
    rw [← List.take_append_drop (k + 1) (srt i), List.pairwise_append] at this
    exact this.2.2 l hl j hj2

end Gen

/-- **The default options make the graph independent of the position and of the unit of the points**: with `center=True` a translation of all points does not change
the graph nor its coordinates, and with `rescale=True` as well neither does a multiplication by a positive number.  After rescaling, all distances are at most
twice `N^(1/min(d,3)) / 10`. -/
theorem C79_invariance (hN : 0 < N) (X : Fin N → Fin d → ℝ) (type : NNType) (k : ℕ) (sigma : Option ℝ) (epsilon : ℝ) (method : SymMethod)
    (dist : DistType) (nn : Fin N → List (Fin N)) (lt : LapType) (s : Fin d → ℝ) :
    (∀ rescale, nnGraph (fun i a => X i a - s a) type true rescale k sigma epsilon method dist nn lt =
      nnGraph X type true rescale k sigma epsilon method dist nn lt) ∧
    (∀ c > 0, nnGraph (fun i a => c * (X i a - s a)) type true true k sigma epsilon method dist nn lt =
      nnGraph X type true true k sigma epsilon method dist nn lt) ∧
    ∀ center g Y, nnGraph X type center true k sigma epsilon method dist nn lt = .ok (g, Y) →
      ∀ i j, √(∑ a, (Y i a - Y j a) ^ 2) ≤ 2 * ((N : ℝ) ^ (1 / (min d 3 : ℕ) : ℝ) / 10) := by
  refine ⟨fun rescale => ?_, fun c hc => ?_, fun center g Y h i j => ?_⟩
  · have : nnPoints true rescale (fun i a => X i a - s a) = nnPoints true rescale X := by
      unfold nnPoints
      have := center_affine hN 1 s X
      simp only [one_mul] at this
      simp only [if_true, this]
    unfold nnGraph
    rw [this]
  · have : nnPoints true true (fun i a => c * (X i a - s a)) = nnPoints true true X := by
      unfold nnPoints
      simp only [if_true, center_affine hN c s X]
      exact rescale_scale hN hc _
    unfold nnGraph
    rw [this]
  · obtain ⟨-, hY, -⟩ := nnGraph_ok h
    unfold nnPoints at hY
    simp only [if_true] at hY
    revert hY
    generalize (if center = true then nnCenter X else X) = Z
    intro hY
    unfold nnRescale at hY
    split at hY
    · cases hY
    split at hY
    · cases hY
    rename_i hr
    have hr' : 0 < boundingRadius Z := lt_of_le_of_ne (radius_nonneg _) (Ne.symm hr)
    obtain rfl := Except.ok.inj hY
    have h1 := dist_le_box Z i j
    rw [mink_two] at h1
    have hs := nnScale_pos hN d
    have e : √(∑ a, (Z i a * (nnScale N d / boundingRadius Z) - Z j a * (nnScale N d / boundingRadius Z)) ^ 2) =
        √(∑ a, (Z i a - Z j a) ^ 2) * (nnScale N d / boundingRadius Z) := by
      simp only [← sub_mul, mul_pow]
      rw [← Finset.sum_mul, Real.sqrt_mul' _ (sq_nonneg _), Real.sqrt_sq (div_nonneg hs.le hr'.le)]
    rw [e]
    calc √(∑ a, (Z i a - Z j a) ^ 2) * (nnScale N d / boundingRadius Z) ≤ 2 * boundingRadius Z * (nnScale N d / boundingRadius Z) :=
          mul_le_mul_of_nonneg_right h1 (div_nonneg hs.le hr'.le)
      _ = 2 * nnScale N d := by field_simp
      _ = _ := rfl

/-- **When `NNGraph` returns**: `k`-nearest neighbours of different points with known options always give a graph. -/
theorem C79_returns {X : Fin N → Fin d → ℝ} {k : ℕ} (hk : 1 ≤ k) (hkN : k < N) (hX : ∀ i j, X i = X j → i = j) (center rescale : Bool) {sigma : Option ℝ}
    (hσ : sigma ≠ some 0) (epsilon : ℝ) {method : SymMethod} (hm : ∀ s, method ≠ .other s) {dist : DistType} {p : MinkP} (hp : dist.order = .ok p)
    {lt : LapType} (hlt : lt = .combinatorial ∨ lt = .normalized) :
    ∃ Y, nnPoints center rescale X = .ok Y ∧ ∀ nn, KnnSpec k (fun i j => minkowski p (Y i) (Y j)) nn →
      ∃ g, nnGraph X .knn center rescale k sigma epsilon method dist nn lt = .ok (g, Y) := by
  have hv := order_valid hp
  have hN : 0 < N := by omega
  have h01 : X ⟨0, by omega⟩ ≠ X ⟨1, by omega⟩ := fun e => by simpa using hX _ _ e
  obtain ⟨Y, hY⟩ : ∃ Y, nnPoints center rescale X = .ok Y := by
    have hZ : (if center then nnCenter X else X) ⟨0, by omega⟩ ≠ (if center then nnCenter X else X) ⟨1, by omega⟩ := by
      cases center
      · exact h01
      · intro e
        apply h01
        funext a
        have := congrFun e a
        simp only [if_true, nnCenter] at this
        linarith
    unfold nnPoints
    cases rescale
    · exact ⟨_, rfl⟩
    · simp only [if_true]
      unfold nnRescale
      have hd : d ≠ 0 := by
        rintro rfl
        exact h01 (funext fun a => a.elim0)
      rw [if_neg hd, if_neg (radius_pos hZ)]
      exact ⟨_, rfl⟩
  refine ⟨Y, hY, fun nn hnn => ?_⟩
  obtain ⟨c, hc, s, hs⟩ := points_affine hN hY
  have h0 : ∀ i j, minkowski p (Y i) (Y j) = 0 ↔ i = j := by
    intro i j
    rw [hs i, hs j, mink_affine p hv hc.le, mul_eq_zero, or_iff_right hc.ne', mink_zero hv]
    exact ⟨hX i j, fun e => by rw [e]⟩
  have hhead := knn_head hnn (fun i j => mink_nonneg p _ _) h0
  have hmean : sigma.getD (nnMean (fun i j => minkowski p (Y i) (Y j)) fun i => (nn i).tail) ≠ 0 := by
    cases sigma with
    | some s => simpa using hσ
    | none =>
      rw [Option.getD_none]
      unfold nnMean
      have htl : ∀ i, (nn i).tail.length = k := by
        intro i
        obtain ⟨l, e, -, -, q, -⟩ := hhead i
        rw [e]; exact q
      have hsum : ∀ i, 0 < ((nn i).tail.map fun j => minkowski p (Y i) (Y j)).sum := by
        intro i
        obtain ⟨l, e, q1, q2, q3, -⟩ := hhead i
        rw [e, List.tail_cons]
        refine List.sum_pos _ ?_ ?_
        · intro x hx
          obtain ⟨j, hj, rfl⟩ := List.mem_map.1 hx
          exact lt_of_le_of_ne (mink_nonneg _ _ _) fun q => q2 (by rw [(h0 i j).1 q.symm]; exact hj)
        · intro q
          have : l = [] := List.map_eq_nil_iff.1 q
          rw [this] at q3; simp at q3; omega
      haveI : Nonempty (Fin N) := ⟨⟨0, hN⟩⟩
      refine (div_pos (Finset.sum_pos (fun i _ => hsum i) Finset.univ_nonempty) ?_).ne'
      rw [Finset.sum_congr rfl fun i _ => htl i]
      have : 0 < N * k := Nat.mul_pos hN hk
      simp only [Finset.sum_const, Finset.card_univ, Fintype.card_fin, smul_eq_mul]
      exact_mod_cast this
  have hW : nnKnn k sigma (fun i j => minkowski p (Y i) (Y j)) nn = .ok (nnWeights (fun i j => minkowski p (Y i) (Y j))
      (sigma.getD (nnMean (fun i j => minkowski p (Y i) (Y j)) fun i => (nn i).tail)) fun i => (nn i).tail) := by
    unfold nnKnn
    rw [if_neg (by omega)]
    exact if_neg hmean
  revert hW
  generalize nnWeights (fun i j => minkowski p (Y i) (Y j)) (sigma.getD (nnMean (fun i j => minkowski p (Y i) (Y j)) fun i => (nn i).tail)) (fun i => (nn i).tail) = W
  intro hW
  obtain ⟨S, hS⟩ : ∃ S, symmetrize true W method = .ok S := by
    unfold symmetrize
    rw [dif_pos rfl]
    cases method with
    | other s => exact absurd rfl (hm s)
    | _ => exact ⟨_, rfl⟩
  obtain ⟨g, hg, -⟩ := Graph.ofCsr_canonical _ (Sp.canonical_ofDense S) hlt
  refine ⟨g, ?_⟩
  unfold nnGraph
  rw [if_neg (by omega), hY]
  simp only [bind, Except.bind, hp, hW, hS, hg]

/-- **When `NNGraph(X, 'radius')` returns**: with known options, when `k < N` and sigma is given, or when two different points are within epsilon. -/
theorem C79_radius_returns {X : Fin N → Fin d → ℝ} {k : ℕ} (hkN : k < N) {center rescale : Bool} {Y : Fin N → Fin d → ℝ} (hY : nnPoints center rescale X = .ok Y)
    {sigma : Option ℝ} (hσ : sigma ≠ some 0) {epsilon : ℝ} {method : SymMethod} (hm : ∀ s, method ≠ .other s) {dist : DistType} {p : MinkP} (hp : dist.order = .ok p)
    (hnone : sigma = none → ∃ i j, 0 < minkowski p (Y i) (Y j) ∧ minkowski p (Y i) (Y j) ≤ epsilon)
    {lt : LapType} (hlt : lt = .combinatorial ∨ lt = .normalized) (nn : Fin N → List (Fin N)) :
    ∃ g, nnGraph X .radius center rescale k sigma epsilon method dist nn lt = .ok (g, Y) := by
  classical
  have hv := order_valid hp
  let nb : Fin N → List (Fin N) := fun i => ((List.finRange N).filter fun j => minkowski p (Y i) (Y j) ≤ epsilon).filter fun j => j ≠ i
  have hmem : ∀ {i j}, 0 < minkowski p (Y i) (Y j) → minkowski p (Y i) (Y j) ≤ epsilon → j ∈ nb i := by
    intro i j h0 h1
    simp only [nb, List.mem_filter, List.mem_finRange, true_and, decide_eq_true_eq]
    refine ⟨h1, ?_⟩
    rintro rfl
    rw [(mink_zero hv _ _).2 rfl] at h0
    exact lt_irrefl _ h0
  have hW : ∃ W, nnRadius epsilon sigma (fun i j => minkowski p (Y i) (Y j)) = .ok W := by
    have h1 : ¬ (sigma = none ∧ ∀ i, nb i = []) := by
      rintro ⟨e, he⟩
      obtain ⟨i, j, h0, h1⟩ := hnone e
      have := hmem h0 h1
      rw [he] at this
      simp at this
    have h2 : sigma.getD (nnMean (fun i j => minkowski p (Y i) (Y j)) nb) ≠ 0 := by
      cases sigma with
      | some s => simpa using hσ
      | none =>
        rw [Option.getD_none]
        unfold nnMean
        obtain ⟨i, j, h0, h1⟩ := hnone rfl
        have hin := hmem h0 h1
        have hnon : ∀ i, 0 ≤ ((nb i).map fun j => minkowski p (Y i) (Y j)).sum := fun i => List.sum_nonneg fun x hx => by
          obtain ⟨l, -, rfl⟩ := List.mem_map.1 hx
          exact mink_nonneg _ _ _
        have hpos : 0 < ((nb i).map fun j => minkowski p (Y i) (Y j)).sum :=
          lt_of_lt_of_le h0 (List.single_le_sum (fun x hx => by
            obtain ⟨l, -, rfl⟩ := List.mem_map.1 hx
            exact mink_nonneg _ _ _) _ (List.mem_map.2 ⟨j, hin, rfl⟩))
        refine (div_pos (Finset.sum_pos' (fun i _ => hnon i) ⟨i, Finset.mem_univ _, hpos⟩) ?_).ne'
        have : 0 < ∑ i, (nb i).length := Finset.sum_pos' (fun _ _ => Nat.zero_le _) ⟨i, Finset.mem_univ _, List.length_pos_of_mem hin⟩
        exact_mod_cast this
    refine ⟨nnWeights (fun i j => minkowski p (Y i) (Y j)) (sigma.getD (nnMean (fun i j => minkowski p (Y i) (Y j)) nb)) nb, ?_⟩
    unfold nnRadius
    exact (if_neg h1).trans (if_neg h2)
  obtain ⟨W, hW⟩ := hW
  obtain ⟨S, hS⟩ : ∃ S, symmetrize true W method = .ok S := by
    unfold symmetrize
    rw [dif_pos rfl]
    cases method with
    | other s => exact absurd rfl (hm s)
    | _ => exact ⟨_, rfl⟩
  obtain ⟨g, hg, -⟩ := Graph.ofCsr_canonical _ (Sp.canonical_ofDense S) hlt
  refine ⟨g, ?_⟩
  unfold nnGraph
  rw [if_neg (by omega), hY]
  simp only [bind, Except.bind, hp, hW, hS, hg]

/-- **Errors**: ValueError for `k ≥ N` (even for `'radius'`, which does not use `k`), for an unknown `NNtype` or method, for a Minkowski order below one,
and for `'radius'` without neighbours when `sigma` is not given; KeyError for an unknown distance. -/
theorem C79_errors (X : Fin N → Fin d → ℝ) (type : NNType) (center rescale : Bool) (k : ℕ) (sigma : Option ℝ) (epsilon : ℝ) (method : SymMethod)
    (dist : DistType) (nn : Fin N → List (Fin N)) (lt : LapType) :
    (N ≤ k → nnGraph X type center rescale k sigma epsilon method dist nn lt = .error .valueError) ∧
      (k < N → ∀ Y, nnPoints center rescale X = .ok Y →
        (∀ s, nnGraph X (.other s) center rescale k sigma epsilon method dist nn lt = .error .valueError) ∧
        (∀ s, type = .knn ∨ type = .radius → nnGraph X type center rescale k sigma epsilon method (.other s) nn lt = .error .keyError) ∧
        (∀ q < 1, type = .knn ∨ type = .radius → nnGraph X type center rescale k sigma epsilon method (.minkowski q) nn lt = .error .valueError) ∧
        (∀ p, dist.order = .ok p → (∀ i j, i ≠ j → epsilon < minkowski p (Y i) (Y j)) →
          nnGraph X .radius center rescale k none epsilon method dist nn lt = .error .valueError)) := by
  refine ⟨fun h => if_pos h, fun h Y hY => ⟨fun s => ?_, fun s ht => ?_, fun q hq ht => ?_, fun p hp he => ?_⟩⟩
  · unfold nnGraph
    rw [if_neg (by omega), hY]
    rfl
  · unfold nnGraph
    rw [if_neg (by omega), hY]
    rcases ht with rfl | rfl <;> rfl
  · have ho : (DistType.minkowski q).order = .error .valueError := if_pos hq
    unfold nnGraph
    rw [if_neg (by omega), hY, ho]
    rcases ht with rfl | rfl <;> rfl
  · classical
    have : nnRadius epsilon none (fun i j => minkowski p (Y i) (Y j)) = .error .valueError := by
      unfold nnRadius
      refine if_pos ⟨rfl, fun i => ?_⟩
      beta_reduce
      rw [List.filter_filter, List.filter_eq_nil_iff]
      intro j _
      simp only [Bool.and_eq_true, decide_eq_true_eq, not_and, not_le]
      exact fun hji => he i j (Ne.symm hji)
    unfold nnGraph
    rw [if_neg (by omega), hY, hp]
    simp only [bind, Except.bind, this]

/-- **Points that coincide may get self-loops**: the search may return the other point first, and only the first result is discarded.  With the points 0, 0, 1 on the line and
`k = 1`, a valid search gives the first vertex a self-loop of weight one. -/
theorem C79_duplicates_violated (epsilon : ℝ) {lt : LapType} (hlt : lt = .combinatorial ∨ lt = .normalized) :
    ∃ (X : Fin 3 → Fin 1 → ℝ) (nn : Fin 3 → List (Fin 3)) (g : Graph 3 ℝ),
      KnnSpec 1 (fun i j => minkowski (.fin 1) (X i) (X j)) nn ∧
      nnGraph X .knn false false 1 (some 1) epsilon .average .manhattan nn lt = .ok (g, X) ∧ g.W.dense 0 0 = 1 := by
  let X : Fin 3 → Fin 1 → ℝ := fun i _ => if i = 2 then 1 else 0
  let nn : Fin 3 → List (Fin 3) := fun i => if i = 2 then [2, 0] else [1, 0]
  have hδ : ∀ i j, minkowski (.fin 1) (X i) (X j) = |(if i = 2 then (1 : ℝ) else 0) - if j = 2 then 1 else 0| := by
    intro i j
    simp [minkowski, X]
  have hspec : KnnSpec 1 (fun i j => minkowski (.fin 1) (X i) (X j)) nn := by
    intro i
    simp only [hδ]
    fin_cases i
    · refine ⟨by simp [nn], by simp [nn], by simp [nn], ?_⟩
      simp [nn]
    · refine ⟨by simp [nn], by simp [nn], by simp [nn], ?_⟩
      simp [nn]
    · refine ⟨by simp [nn], by simp [nn], by simp [nn], ?_⟩
      intro l hl j hj
      fin_cases j <;> simp_all [nn]
      rcases hl with rfl | rfl <;> simp
  have hnd : ∀ i, ((nn i).tail).Nodup := by intro i; simp only [nn]; split <;> simp
  obtain ⟨S, hS, hS'⟩ := (C53_values true (nnWeights (fun i j => minkowski (.fin 1) (X i) (X j)) 1 fun i => (nn i).tail)).1
  obtain ⟨g, hg, -, hd, -⟩ := Graph.ofCsr_canonical _ (Sp.canonical_ofDense S) hlt
  refine ⟨X, nn, g, hspec, ?_, ?_⟩
  · unfold nnGraph
    rw [if_neg (by norm_num)]
    have h1 : nnPoints false false X = .ok X := rfl
    have h2 : DistType.manhattan.order = .ok (.fin 1) := rfl
    have h3 : nnKnn 1 (some 1) (fun i j => minkowski (.fin 1) (X i) (X j)) nn = .ok (nnWeights (fun i j => minkowski (.fin 1) (X i) (X j)) 1 fun i => (nn i).tail) := by
      unfold nnKnn
      rw [if_neg (by norm_num)]
      exact if_neg (by simp)
    simp only [bind, Except.bind, h1, h2, h3, hS, hg]
  · rw [hd, Sp.dense_ofDense, hS', nnWeights_apply _ _ hnd, hδ]
    simp [nn]

/-- **The array of the caller is modified** when `center=False` and `rescale=True`: it becomes the rescaled coordinates. -/
theorem C79_mutates_violated {X : Fin N → Fin d → ℝ} {type : NNType} {k : ℕ} {sigma : Option ℝ} {epsilon : ℝ} {method : SymMethod}
    {dist : DistType} {nn : Fin N → List (Fin N)} {lt : LapType} {g : Graph N ℝ} {Y : Fin N → Fin d → ℝ}
    (h : nnGraph X type false true k sigma epsilon method dist nn lt = .ok (g, Y)) :
    nnXinAfter false true X = Y ∧ (X ≠ 0 → nnScale N d ≠ boundingRadius X → Y ≠ X) ∧ ∀ rescale, nnXinAfter true rescale X = X := by
  obtain ⟨-, hY, -⟩ := nnGraph_ok h
  have hY : nnRescale X = .ok Y := hY
  refine ⟨?_, fun hX hs e => ?_, fun _ => rfl⟩
  · simp only [nnXinAfter, Bool.false_eq_true, if_false, if_true, hY]
  · unfold nnRescale at hY
    split at hY
    · cases hY
    split at hY
    · cases hY
    rename_i hr
    rw [← Except.ok.inj hY] at e
    apply hX
    funext i a
    have := congrFun (congrFun e i) a
    have h2 : X i a * (nnScale N d / boundingRadius X - 1) = 0 := by rw [mul_sub, this]; ring
    rcases mul_eq_zero.1 h2 with q | q
    · exact q
    · exact absurd ((div_eq_one_iff_eq hr).1 (sub_eq_zero.1 q)) hs

/-- a graph of five points on the line with all the default options -/
example : ∃ (nn : Fin 5 → List (Fin 5)) (g : Graph 5 ℝ) (Y : Fin 5 → Fin 1 → ℝ),
    nnGraph (fun i _ => (i.1 : ℝ)) .knn true true 2 none 0.01 .average .euclidean nn .combinatorial = .ok (g, Y) ∧
      KnnSpec 2 (fun i j => minkowski (.fin 2) (Y i) (Y j)) nn := by
  obtain ⟨Y, hY, h⟩ := C79_returns (N := 5) (d := 1) (X := fun i _ => (i.1 : ℝ)) (k := 2) (by norm_num) (by norm_num)
    (fun i j e => Fin.ext (by exact_mod_cast congrFun e 0)) true true (sigma := none) (by simp) 0.01 (method := .average) (by simp)
    (dist := .euclidean) rfl (.inl rfl)
  obtain ⟨nn, hnn⟩ := exists_knn (N := 5) (k := 2) (by norm_num) (fun i j => minkowski (.fin 2) (Y i) (Y j))
  obtain ⟨g, hg⟩ := h nn hnn
  exact ⟨nn, g, Y, hg, hnn⟩

/-- the points 0, …, 4 on the line are connected to those within distance 2 -/
example : ∃ g : Graph 5 ℝ, nnGraph (fun (i : Fin 5) (_ : Fin 1) => (i.1 : ℝ)) .radius false false 3 none 2 .average .manhattan (fun _ => []) .combinatorial =
    .ok (g, fun i _ => (i.1 : ℝ)) :=
  C79_radius_returns (by norm_num) rfl (by simp) (by simp) rfl (fun _ => ⟨0, 2, by norm_num [minkowski], by norm_num [minkowski]⟩) (.inl rfl) _

end PyGSP
