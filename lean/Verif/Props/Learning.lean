import Verif.Lemmas.Learning

/-!
# C58 - C61: Tikhonov regression and classification
-/

namespace PyGSP

open Matrix Spec GState Learning

variable {n : ℕ}

section Regression

variable {S : Solvers n} (hS : Sound S) {g : Graph n ℝ} (hg : g.Built) (hist : List (Op n)) {s : GState n}
  (hs : s = runAll S hist (GState.ofGraph g))

/-! ## C58 -/

/-- the interpolation of one column: labels kept, harmonic elsewhere, hence bounded -/
theorem interp_spec {M : Matrix (Fin n) (Fin n) ℝ} (hM : NonnegW M) {m : Fin n → Bool} (ha : Anchored M m) {y : Fin n → ℝ}
    {part} (h : solveUnlabelled (combLap M) m y = .ok part) (v : Fin n) :
    (∃ b, m b = true ∧ fill false m y part v ≤ y b) ∧ ∃ b, m b = true ∧ y b ≤ fill false m y part v := by
  have hh := (solveUnlabelled_ok h).2
  have hlab : ∀ b, m b = true → fill false m y part b = y b := fun b hb => by simp [fill, hb]
  constructor
  · obtain ⟨b, hb, h1⟩ := max_principle hM (fun v => m v = true) ha (fill false m y part)
      (fun v hv => (hh v (by simpa using hv)).le) v
    exact ⟨b, hb, by rw [← hlab b hb]; exact h1⟩
  · obtain ⟨b, hb, h1⟩ := min_principle hM (fun v => m v = true) ha (fill false m y part)
      (fun v hv => (hh v (by simpa using hv)).ge) v
    exact ⟨b, hb, by rw [← hlab b hb]; exact h1⟩

theorem regression1_nonpos (cg) (isInt : Bool) (L : Matrix (Fin n) (Fin n) ℝ) (y : Fin n → ℝ) (m : Fin n → Bool) {tau : ℝ}
    (ht : tau ≤ 0) : regression1 cg isInt L y m tau = match solveUnlabelled L m y with
      | .error e => .error e
      | .ok part => .ok (fill isInt m y part) := by
  unfold regression1
  rw [if_neg (not_lt.2 ht), dif_pos rfl]
  rfl

include hS hg hs in
/-- **Interpolation** (`tau <= 0`, float measurements, combinatorial Laplacian): when every vertex is linked to a labelled
one and not all are labelled, the result keeps the measurements, is the unique signal of smallest `xᵀ L x` among those which
keep them, and lies between the smallest and the largest measurement. -/
theorem C58_interpolation (hW : NonnegW g.W.dense) (hc : s.lapType = .combinatorial) (cg) (y : Fin n → ℝ) (m : Fin n → Bool)
    (ha : Anchored g.W.dense m) (hu : ∃ v, m v = false) {tau : ℝ} (ht : tau ≤ 0) :
    ∃ x, regression1 cg false s.L y m tau = .ok x ∧ (∀ v, m v = true → x v = y v) ∧
      (∀ z : Fin n → ℝ, (∀ v, m v = true → z v = y v) → smoothness s.L x ≤ smoothness s.L z ∧
        (smoothness s.L z = smoothness s.L x → z = x)) ∧
      ∀ v, (∃ b, m b = true ∧ x v ≤ y b) ∧ ∃ b, m b = true ∧ y b ≤ x v := by
  rw [L_combinatorial hS hg hist hs hc]
  obtain ⟨part, hp⟩ := solveUnlabelled_comb hW ha hu y
  have hr : regression1 cg false (combLap g.W.dense) y m tau = .ok (fill false m y part) := by
    rw [regression1_nonpos _ _ _ _ _ ht, hp]
  have hlab : ∀ b, m b = true → fill false m y part b = y b := fun b hb => by simp [fill, hb]
  refine ⟨_, hr, hlab, fun z hz => ?_, fun v => interp_spec hW ha hp v⟩
  have hh := (solveUnlabelled_ok hp).2
  have h1 := quad_add (combLap_isSymm g.W.dense) (fill false m y part) (z - fill false m y part)
  rw [add_sub_cancel] at h1
  have h2 : (z - fill false m y part) ⬝ᵥ (combLap g.W.dense *ᵥ fill false m y part) = 0 := by
    unfold dotProduct
    refine Finset.sum_eq_zero fun v _ => ?_
    cases hv : m v
    · rw [hh v hv, mul_zero]
    · rw [Pi.sub_apply, hz v hv, hlab v hv, sub_self, zero_mul]
  rw [h2, mul_zero, add_zero] at h1
  have h3 := combLap_psd hW (z - fill false m y part)
  change 0 ≤ smoothness (combLap g.W.dense) (z - fill false m y part) at h3
  refine ⟨by linarith, fun he => ?_⟩
  have h4 : smoothness (combLap g.W.dense) (z - fill false m y part) = 0 := by linarith
  funext v
  obtain ⟨b, hb, hl⟩ := ha v
  have h5 := quad_zero_linked hW h4 hl
  simp only [Pi.sub_apply, hz b hb, hlab b hb, sub_self] at h5
  exact sub_eq_zero.1 h5

include hS hg hs in
/-- With any Laplacian (also normalized, at any point of any history): if a result is returned (rather than NaN) it keeps the measurements and
minimises the smoothness. -/
theorem C58_any_laplacian (hW : NonnegW g.W.dense) (cg) (y : Fin n → ℝ) (m : Fin n → Bool) {tau : ℝ}
    (ht : tau ≤ 0) {x : Fin n → ℝ} (hx : regression1 cg false s.L y m tau = .ok x) :
    (∀ v, m v = true → x v = y v) ∧ ∀ z : Fin n → ℝ, (∀ v, m v = true → z v = y v) → smoothness s.L x ≤ smoothness s.L z := by
  obtain ⟨hi, hWs, -⟩ := reach_inv hS hg hist
  rw [← hs] at hi hWs
  have hW2 : NonnegW s.W.dense := by
    have : s.W = g.W := hWs
    rw [this]; exact hW
  have hpsd := hi.psd hW2
  have hsym : s.Lᵀ = s.L := by
    obtain ⟨lt, -, h, -⟩ := hi.lap
    ext i j
    exact laplacian_symm _ _ _ h j i
  rw [regression1_nonpos _ _ _ _ _ ht] at hx
  rcases hp : solveUnlabelled s.L m y with e | part
  · rw [hp] at hx; cases hx
  · rw [hp] at hx
    obtain rfl := Except.ok.inj hx
    have hlab : ∀ b, m b = true → fill false m y part b = y b := fun b hb => by simp [fill, hb]
    refine ⟨hlab, fun z hz => ?_⟩
    have hh := (solveUnlabelled_ok hp).2
    have h1 := quad_add hsym (fill false m y part) (z - fill false m y part)
    rw [add_sub_cancel] at h1
    have h2 : (z - fill false m y part) ⬝ᵥ (s.L *ᵥ fill false m y part) = 0 := by
      unfold dotProduct
      refine Finset.sum_eq_zero fun v _ => ?_
      cases hv : m v
      · rw [hh v hv, mul_zero]
      · rw [Pi.sub_apply, hz v hv, hlab v hv, sub_self, zero_mul]
    have h3 := hpsd (z - fill false m y part)
    change 0 ≤ smoothness s.L (z - fill false m y part) at h3
    rw [h2, mul_zero, add_zero] at h1
    linarith

include hS hg hs in
/-- A component without measurement makes the linear system singular: scipy returns NaN.  A mask of the wrong size raises
ValueError. -/
theorem C58_errors (hc : s.lapType = .combinatorial) (cg) (y : Fin n → ℝ) {p : ℕ} (M : Fin p → Bool) {tau : ℝ} (ht : tau ≤ 0) :
    (p ≠ n → regression1 cg false s.L y M tau = .error .valueError) ∧
    (∀ m : Fin n → Bool, ¬ Anchored g.W.dense m → regression1 cg false s.L y m tau = .error .unmodelled) := by
  constructor
  · intro h
    unfold regression1
    rw [if_neg (not_lt.2 ht), dif_neg h]
  · intro m ha
    rw [regression1_nonpos _ _ _ _ _ ht, L_combinatorial hS hg hist hs hc, solveUnlabelled_singular ha]

/-- Violation: with integer measurements the interpolated values are truncated.  On the path with three vertices, with
`y = [0, 0, 1]` (integers) and the middle vertex unknown, the middle value is 0 instead of 1/2, which is not the minimiser. -/
theorem C58_integer_measurements_violated (cg) : ∃ x z : Fin 3 → ℝ, regression1 cg true (combLap !![0, 1, 0; 1, 0, 1; 0, 1, 0])
      ![0, 0, 1] ![true, false, true] 0 = .ok x ∧ x 1 = 0 ∧ (∀ v, (![true, false, true] : Fin 3 → Bool) v = true → z v = x v) ∧
      smoothness (combLap !![0, 1, 0; 1, 0, 1; 0, 1, 0]) z < smoothness (combLap !![0, 1, 0; 1, 0, 1; 0, 1, 0]) x := by
  set M : Matrix (Fin 3) (Fin 3) ℝ := !![0, 1, 0; 1, 0, 1; 0, 1, 0] with hM
  have hnn : NonnegW M := by intro i j; fin_cases i <;> fin_cases j <;> simp [hM]
  set m : Fin 3 → Bool := ![true, false, true] with hm
  have ha : Anchored M m := by
    intro v
    fin_cases v
    · exact ⟨0, rfl, .refl⟩
    · exact ⟨0, rfl, .single (.inl (by simp [hM]))⟩
    · exact ⟨2, rfl, .refl⟩
  obtain ⟨part, hp⟩ := solveUnlabelled_comb hnn ha ⟨1, rfl⟩ ![0, 0, 1]
  have hh := (solveUnlabelled_ok hp).2 1 rfl
  rw [combLap_mulVec] at hh
  have e1 : fill false m ![0, 0, 1] part 0 = 0 := rfl
  have e2 : fill false m ![0, 0, 1] part 1 = part ⟨1, rfl⟩ := by simp [fill, hm, store]
  have e3 : fill false m ![0, 0, 1] part 2 = 1 := rfl
  simp only [Fin.sum_univ_three, e1, e2, e3] at hh
  have hpart : part ⟨1, rfl⟩ = 1 / 2 := by
    simp [wsym, hM] at hh
    linarith
  refine ⟨fill true m ![0, 0, 1] part, ![0, 1 / 2, 1], ?_, ?_, ?_, ?_⟩
  · rw [regression1_nonpos _ _ _ _ _ le_rfl, hp]
  · simp only [fill, hm, store]
    rw [dif_pos (by rfl), hpart, if_pos trivial, if_pos (by norm_num)]
    norm_num
  · intro v
    fin_cases v
    · intro _; rfl
    · intro h; cases h
    · intro _; rfl
  · have e4 : fill true m ![0, 0, 1] part = ![0, 0, 1] := by
      funext v
      fin_cases v
      · rfl
      · show fill true m ![0, 0, 1] part 1 = 0
        simp only [fill, hm, store]
        rw [dif_pos (by rfl), hpart, if_pos trivial, if_pos (by norm_num)]
        norm_num
      · rfl
    rw [e4]
    unfold smoothness
    rw [combLap_quad, combLap_quad]
    simp [dirichlet, Fin.sum_univ_three, hM]
    norm_num

/-! ## C59 -/

include hS hg hs in
/-- **Penalised regression** (`tau > 0`, any Laplacian at any point of any history): the result minimises
`sum over the labelled vertices of (x_v - y_v)² + tau xᵀ L x` over all signals. -/
theorem C59_minimises (hW : NonnegW g.W.dense) {cg} (hcg : ExactCG cg) (isInt : Bool) (y : Fin n → ℝ)
    (m : Fin n → Bool) {tau : ℝ} (ht : 0 < tau) :
    ∃ x, regression1 cg isInt s.L y m tau = .ok x ∧ ∀ z, objective s.L m y tau x ≤ objective s.L m y tau z := by
  obtain ⟨hi, hWs, -⟩ := reach_inv hS hg hist
  rw [← hs] at hi hWs
  have hW2 : NonnegW s.W.dense := by
    have : s.W = g.W := hWs
    rw [this]; exact hW
  have hpsd := hi.psd hW2
  have hsym : s.Lᵀ = s.L := by
    obtain ⟨lt, -, h, -⟩ := hi.lap
    ext i j
    exact laplacian_symm _ _ _ h j i
  refine ⟨cg (penalised s.L m tau) (mask m y), ?_, fun z => ?_⟩
  · unfold regression1
    rw [if_pos ht, dif_pos rfl]
    rfl
  · have hx := hcg _ _ (penalised_symm hsym tau) (penalised_psd hpsd ht) (penalised_consistent (m := m) hsym hpsd ht y)
    rw [objective_eq hsym hx z]
    have h1 : 0 ≤ ∑ v, if m v then (z v - cg (penalised s.L m tau) (mask m y) v) ^ 2 else 0 :=
      Finset.sum_nonneg fun v _ => by split <;> positivity
    have h2 := mul_nonneg ht.le (hpsd (z - cg (penalised s.L m tau) (mask m y)))
    change 0 ≤ tau * smoothness s.L _ at h2
    linarith

include hS hg hs in
/-- With the combinatorial Laplacian, and every vertex linked to a measurement: the minimiser is unique and lies between the
smallest and the largest measurement. -/
theorem C59_unique_bounded (hW : NonnegW g.W.dense) (hc : s.lapType = .combinatorial) {cg} (hcg : ExactCG cg) (isInt : Bool)
    (y : Fin n → ℝ) (m : Fin n → Bool) (ha : Anchored g.W.dense m) {tau : ℝ} (ht : 0 < tau) :
    ∃ x, regression1 cg isInt s.L y m tau = .ok x ∧
      (∀ z, objective s.L m y tau z ≤ objective s.L m y tau x → z = x) ∧
      ∀ v, (∃ b, m b = true ∧ x v ≤ y b) ∧ ∃ b, m b = true ∧ y b ≤ x v := by
  rw [L_combinatorial hS hg hist hs hc]
  have hsym := combLap_isSymm g.W.dense
  have hpsd := combLap_psd hW
  have hx := hcg _ _ (penalised_symm hsym tau) (penalised_psd hpsd ht) (penalised_consistent (m := m) hsym hpsd ht y)
  refine ⟨cg (penalised (combLap g.W.dense) m tau) (mask m y), ?_, fun z hz => ?_,
    fun v => ⟨penalised_le hW ha ht hx v, penalised_ge hW ha ht hx v⟩⟩
  · unfold regression1
    rw [if_pos ht, dif_pos rfl]
    rfl
  · rw [objective_eq hsym hx z] at hz
    set x := cg (penalised (combLap g.W.dense) m tau) (mask m y)
    have h1 : 0 ≤ ∑ v, if m v then (z v - x v) ^ 2 else 0 := Finset.sum_nonneg fun v _ => by split <;> positivity
    have h2 : 0 ≤ smoothness (combLap g.W.dense) (z - x) := hpsd (z - x)
    have h2' := mul_nonneg ht.le h2
    have h3 : ∑ v, (if m v then (z v - x v) ^ 2 else 0) = 0 := by linarith
    have h4 : smoothness (combLap g.W.dense) (z - x) = 0 := by
      have : tau * smoothness (combLap g.W.dense) (z - x) = 0 := by linarith
      exact (mul_eq_zero.1 this).resolve_left ht.ne'
    funext v
    obtain ⟨b, hb, hl⟩ := ha v
    have h5 := quad_zero_linked hW h4 hl
    have h6 := (Finset.sum_eq_zero_iff_of_nonneg fun v _ => by split <;> positivity).1 h3 b (Finset.mem_univ b)
    rw [if_pos hb] at h6
    have h7 := pow_eq_zero_iff two_ne_zero |>.1 h6
    simp only [Pi.sub_apply, h7] at h5
    linarith

/-- A mask of the wrong size raises IndexError when `tau > 0`. -/
theorem C59_mask (cg) (isInt : Bool) (L : Matrix (Fin n) (Fin n) ℝ) (y : Fin n → ℝ) {p : ℕ} (M : Fin p → Bool) {tau : ℝ}
    (ht : 0 < tau) (hp : p ≠ n) : regression1 cg isInt L y M tau = .error .indexError := by
  unfold regression1
  rw [if_pos ht, dif_neg hp]

include hS hg hs in
/-- Several columns of measurements, `tau > 0`: every column of the result minimises the penalised objective of that column. -/
theorem C59_columns (hW : NonnegW g.W.dense) {cg} (hcg : ExactCG cg) {k : ℕ} (y : Fin n → Fin k → ℝ) (m : Fin n → Bool) {tau : ℝ} (ht : 0 < tau) :
    ∃ X, regression2 cg s.L y m tau = .ok X ∧ ∀ j z, objective s.L m (fun v => y v j) tau (fun v => X v j) ≤ objective s.L m (fun v => y v j) tau z := by
  refine ⟨fun v j => cg (penalised s.L m tau) (mask m fun v => y v j) v, ?_, fun j => ?_⟩
  · unfold regression2
    rw [if_pos ht, dif_pos rfl]
    rfl
  · obtain ⟨x, h1, h2⟩ := C59_minimises hS hg hist hs hW hcg false (fun v => y v j) m ht
    unfold regression1 at h1
    rw [if_pos ht, dif_pos rfl] at h1
    rw [← Except.ok.inj h1] at h2
    exact h2

include hS hg hs in
/-- Several columns of measurements, `tau <= 0`: every column of the result is the interpolation of that column.  (One column works only if one vertex is unlabelled.) -/
theorem C58_columns (hW : NonnegW g.W.dense) (hc : s.lapType = .combinatorial) (cg) {k : ℕ} (y : Fin n → Fin k → ℝ) (m : Fin n → Bool)
    (ha : Anchored g.W.dense m) (hu : ∃ v, m v = false) {tau : ℝ} (ht : tau ≤ 0) (hk : 2 ≤ k ∨ k = 1 ∧ Fintype.card (Unlabelled m) = 1) :
    ∃ X, regression2 cg s.L y m tau = .ok X ∧ ∀ j, (∀ v, m v = true → X v j = y v j) ∧
      ∀ z : Fin n → ℝ, (∀ v, m v = true → z v = y v j) → smoothness s.L (fun v => X v j) ≤ smoothness s.L z ∧ (smoothness s.L z = smoothness s.L (fun v => X v j) → z = fun v => X v j) := by
  have hpart : ∀ j, ∃ part, solveUnlabelled s.L m (fun v => y v j) = .ok part := fun j => by
    rw [L_combinatorial hS hg hist hs hc]
    exact solveUnlabelled_comb hW ha hu _
  choose part hpart using hpart
  have hseq : seqFin k (fun j => solveUnlabelled s.L m fun v => y v j) = .ok part := by
    rw [seqFin_ok]; exact hpart
  refine ⟨fun v j => fill false m (fun v => y v j) (part j) v, ?_, fun j => ?_⟩
  · unfold regression2
    rw [if_neg (not_lt.2 ht), dif_pos rfl]
    simp only [Fin.cast_eq_self]
    rw [if_neg (by omega), hseq]
    simp only
    rw [if_neg]
    rintro ⟨h1, h2⟩
    rcases hk with hk | hk
    · omega
    · exact h2 hk.2
  · obtain ⟨x, h1, h2, h3, -⟩ := C58_interpolation hS hg hist hs hW hc cg (fun v => y v j) m ha hu ht
    rw [regression1_nonpos _ _ _ _ _ ht, hpart j] at h1
    rw [← Except.ok.inj h1] at h2 h3
    exact ⟨h2, h3⟩

end Regression

/-! ## C60 -/

theorem pyIndex_nonneg {k : ℕ} {i : ℤ} (h0 : 0 ≤ i) (h1 : i < k) : pyIndex k i = some ⟨i.toNat, by omega⟩ := dif_pos ⟨h0, h1⟩

theorem intMax_ok (hn : 0 < n) (x : Fin n → ℤ) : ∃ mx, intMax x = .ok mx ∧ (∀ v, x v ≤ mx) ∧ ∃ v, x v = mx := by
  refine ⟨_, dif_pos hn, fun v => Finset.le_sup' x (Finset.mem_univ v), ?_⟩
  obtain ⟨v, -, hv⟩ := Finset.exists_mem_eq_sup' ⟨⟨0, hn⟩, Finset.mem_univ _⟩ x
  exact ⟨v, hv.symm⟩

/-- **Logits**: for non-negative labels the result has one column per class up to the largest label, every row is the
one-hot encoding of the label. -/
theorem C60_logits (hn : 0 < n) (x : Fin n → ℕ) :
    ∃ (k : ℕ) (Y : Fin n → Fin k → ℝ), toLogits (fun v => (x v : ℤ)) = .ok ⟨k, Y⟩ ∧ (∀ v, x v < k) ∧ (∃ v, x v + 1 = k) ∧
      ∀ v j, Y v j = if j.1 = x v then 1 else 0 := by
  obtain ⟨mx, h1, h2, v0, h3⟩ := intMax_ok hn fun v => (x v : ℤ)
  have hk : (mx + 1).toNat = x v0 + 1 := by rw [← h3]; omega
  have hlt : ∀ v, (x v : ℤ) < ((mx + 1).toNat : ℤ) := fun v => by have := h2 v; rw [hk]; omega
  refine ⟨(mx + 1).toNat, fun v j => if pyIndex _ (x v : ℤ) = some j then 1 else 0, ?_, fun v => by have := hlt v; omega, ⟨v0, hk.symm⟩,
    fun v j => ?_⟩
  · unfold toLogits
    rw [h1]
    simp only
    rw [if_neg (by rw [← h3]; omega), if_neg]
    rintro ⟨v, hv⟩
    rw [pyIndex_nonneg (by omega) (hlt v)] at hv
    cases hv
  · simp only [pyIndex_nonneg (Int.natCast_nonneg (x v)) (hlt v), Option.some.injEq, Fin.ext_iff, Int.toNat_natCast]
    simp only [eq_comm]

/-- Violation: a negative label is not rejected, it silently becomes another class. -/
theorem C60_negative_labels_violated : ∃ Y, toLogits ![-1, 2] = .ok ⟨3, Y⟩ ∧ Y 0 = Y 1 := by
  have hm : intMax (![-1, 2] : Fin 2 → ℤ) = .ok 2 := by rfl
  refine ⟨fun v j => if pyIndex 3 ((![-1, 2] : Fin 2 → ℤ) v) = some j then 1 else 0, ?_, ?_⟩
  · unfold toLogits
    rw [hm]
    simp only
    rw [if_neg (by norm_num), if_neg]
    · rfl
    · rintro ⟨v, hv⟩
      revert hv
      fin_cases v <;> decide
  · funext j
    have : pyIndex 3 ((![-1, 2] : Fin 2 → ℤ) 0) = pyIndex 3 ((![-1, 2] : Fin 2 → ℤ) 1) := by decide
    simp only [this]

/-- what the classification solves: one problem per class -/
theorem classification_eq (cg) (L : Matrix (Fin n) (Fin n) ℝ) (y : Fin n → ℕ) (m : Fin n → Bool) (tau : ℝ) {k : ℕ}
    {Y : Fin n → Fin k → ℝ} (hY : toLogits (fun v => (((if m v then y v else 0 : ℕ)) : ℤ)) = .ok ⟨k, Y⟩) {X}
    (hX : regression2 cg L Y m tau = .ok X) : classification cg L (fun v => (y v : ℤ)) m tau = .ok ⟨k, X⟩ := by
  unfold classification
  rw [dif_pos rfl]
  have : (fun v => if m (v.cast rfl) = true then (y v : ℤ) else 0) = fun v => (((if m v then y v else 0 : ℕ)) : ℤ) := by
    funext v
    simp only [Fin.cast_eq_self]
    split <;> simp
  rw [this, hY]
  simp only [hX]

section Classification

variable {S : Solvers n} (hS : Sound S) {g : Graph n ℝ} (hg : g.Built) (hist : List (Op n)) {s : GState n}
  (hs : s = runAll S hist (GState.ofGraph g))

include hS hg hs in
/-- **Classification** (combinatorial Laplacian, every vertex linked to a labelled one): for at least two classes, the rows
of the result are probability vectors; with `tau <= 0` the rows of the labelled vertices are the one-hot encodings of their
labels, so that `argmax` returns the label. -/
theorem C60_classification (hW : NonnegW g.W.dense) (hc : s.lapType = .combinatorial) {cg} (hcg : ExactCG cg) (hn : 0 < n)
    (y : Fin n → ℕ) (m : Fin n → Bool) (ha : Anchored g.W.dense m) (hu : ∃ v, m v = false) (hcl : ∃ v, m v = true ∧ y v ≠ 0)
    (tau : ℝ) :
    ∃ (k : ℕ) (X : Fin n → Fin k → ℝ), classification cg s.L (fun v => (y v : ℤ)) m tau = .ok ⟨k, X⟩ ∧
      (∀ v, m v = true → y v < k) ∧ (∃ v, m v = true ∧ y v + 1 = k) ∧ (∀ v, InSimplex (X v)) ∧
      (tau ≤ 0 → ∀ v, m v = true → ∀ j, X v j = if j.1 = y v then 1 else 0) := by
  rw [L_combinatorial hS hg hist hs hc]
  obtain ⟨k, Y, hY, hk, ⟨v0, hv0⟩, hval⟩ := C60_logits hn fun v => if m v then y v else 0
  obtain ⟨v1, hv1, hy1⟩ := hcl
  have hk1 : 2 ≤ k := by have := hk v1; rw [if_pos hv1] at this; omega
  have hv0m : m v0 = true := by
    cases h : m v0 with
    | true => rfl
    | false => rw [h] at hv0; simp at hv0; omega
  have hYm : ∀ v, m v = true → ∀ j, Y v j = if j.1 = y v then 1 else 0 := fun v hv j => by rw [hval, if_pos hv]
  have hYs : ∀ v, m v = true → ∑ j, Y v j = 1 := fun v hv => by
    have hlt : y v < k := by have := hk v; rwa [if_pos hv] at this
    simp only [hYm v hv]
    rw [Finset.sum_eq_single ⟨y v, hlt⟩]
    · simp
    · intro j _ hj
      rw [if_neg fun h => hj (Fin.ext h)]
    · simp
  have hY0 : ∀ v, m v = true → ∀ j, 0 ≤ Y v j := fun v hv j => by rw [hYm v hv]; split <;> norm_num
  have hbase : (∀ v, m v = true → y v < k) ∧ ∃ v, m v = true ∧ y v + 1 = k :=
    ⟨fun v hv => by have := hk v; rwa [if_pos hv] at this, v0, hv0m, by rwa [if_pos hv0m] at hv0⟩
  by_cases ht : tau ≤ 0
  · -- interpolation
    have hpart : ∀ j, ∃ part, solveUnlabelled (combLap g.W.dense) m (fun v => Y v j) = .ok part := fun j =>
      solveUnlabelled_comb hW ha hu _
    choose part hpart using hpart
    have hseq : seqFin k (fun j => solveUnlabelled (combLap g.W.dense) m fun v => Y v j) = .ok part := by
      rw [seqFin_ok]; exact hpart
    have hr : regression2 cg (combLap g.W.dense) Y m tau = .ok fun v j => fill false m (fun v => Y v j) (part j) v := by
      unfold regression2
      rw [if_neg (not_lt.2 ht), dif_pos rfl]
      simp only [Fin.cast_eq_self]
      rw [if_neg (by omega)]
      rw [hseq]
      simp only
      rw [if_neg (by omega)]
    have hlab : ∀ v, m v = true → ∀ j, fill false m (fun v => Y v j) (part j) v = Y v j := fun v hv j => by simp [fill, hv]
    refine ⟨k, _, classification_eq cg _ y m tau hY hr, hbase.1, hbase.2, fun v => ⟨fun j => ?_, ?_⟩, fun _ v hv j => ?_⟩
    · obtain ⟨b, hb, h⟩ := (interp_spec hW ha (hpart j) v).2
      exact (hY0 b hb j).trans h
    · -- the sum of the columns is harmonic and equal to one on the labels
      set x : Fin n → ℝ := fun v => ∑ j, fill false m (fun v => Y v j) (part j) v with hx
      have hx1 : ∀ b, m b = true → x b = 1 := fun b hb => by
        simp only [hx, hlab b hb]; exact hYs b hb
      have hx2 : ∀ v, m v = false → (combLap g.W.dense *ᵥ x) v = 0 := fun v hv => by
        have : combLap g.W.dense *ᵥ x = ∑ j, combLap g.W.dense *ᵥ (fill false m (fun v => Y v j) (part j)) := by
          rw [← Matrix.mulVec_sum]
          congr 1
          funext v; simp [hx]
        rw [this, Finset.sum_apply]
        exact Finset.sum_eq_zero fun j _ => (solveUnlabelled_ok (hpart j)).2 v hv
      show x v = 1
      obtain ⟨b, hb, h1⟩ := max_principle hW (fun v => m v = true) ha x (fun v hv => (hx2 v (by simpa using hv)).le) v
      obtain ⟨b', hb', h2⟩ := min_principle hW (fun v => m v = true) ha x (fun v hv => (hx2 v (by simpa using hv)).ge) v
      rw [hx1 b hb] at h1
      rw [hx1 b' hb'] at h2
      linarith
    · rw [hlab v hv, hYm v hv]
  · push Not at ht
    have hsym := combLap_isSymm g.W.dense
    have hpsd := combLap_psd hW
    have hx : ∀ j, penalised (combLap g.W.dense) m tau *ᵥ cg (penalised (combLap g.W.dense) m tau) (mask m fun v => Y v j) =
        mask m fun v => Y v j := fun j =>
      hcg _ _ (penalised_symm hsym tau) (penalised_psd hpsd ht) (penalised_consistent hsym hpsd ht _)
    have hr : regression2 cg (combLap g.W.dense) Y m tau = .ok fun v j =>
        cg (penalised (combLap g.W.dense) m tau) (mask m fun v => Y v j) v := by
      unfold regression2
      rw [if_pos ht, dif_pos rfl]
      rfl
    refine ⟨k, _, classification_eq cg _ y m tau hY hr, hbase.1, hbase.2, fun v => ⟨fun j => ?_, ?_⟩,
      fun h => absurd h (not_le.2 ht)⟩
    · obtain ⟨b, hb, h⟩ := penalised_ge hW ha ht (hx j) v
      exact (hY0 b hb j).trans h
    · have hsum : penalised (combLap g.W.dense) m tau *ᵥ (fun v => ∑ j, cg (penalised (combLap g.W.dense) m tau) (mask m fun v => Y v j) v) =
          mask m fun v => ∑ j, Y v j := by
        have : (fun v => ∑ j, cg (penalised (combLap g.W.dense) m tau) (mask m fun v => Y v j) v) =
            ∑ j, cg (penalised (combLap g.W.dense) m tau) (mask m fun v => Y v j) := by funext v; simp
        rw [this, Matrix.mulVec_sum]
        funext v
        rw [Finset.sum_apply]
        simp only [hx]
        unfold mask
        split <;> simp
      obtain ⟨b, hb, h1⟩ := penalised_le hW ha ht hsum v
      obtain ⟨b', hb', h2⟩ := penalised_ge hW ha ht hsum v
      rw [hYs b hb] at h1
      rw [hYs b' hb'] at h2
      linarith

/-- Violation: with only one class (all labels 0) and at least two unknown vertices, `tau = 0` raises ValueError instead of
returning the only class. -/
theorem C60_single_class_violated {M : Matrix (Fin n) (Fin n) ℝ} (hM : NonnegW M) (cg) (m : Fin n → Bool) (ha : Anchored M m)
    (hn : 0 < n) (hu : 2 ≤ Fintype.card (Unlabelled m)) :
    classification cg (combLap M) (fun _ => 0) m 0 = .error .valueError := by
  obtain ⟨k, Y, hY, -, ⟨v0, hv0⟩, -⟩ := C60_logits hn fun _ => 0
  have hk : k = 1 := by omega
  subst hk
  obtain ⟨⟨u, hu'⟩⟩ : Nonempty (Unlabelled m) := Fintype.card_pos_iff.1 (by omega)
  have hpart : ∀ j : Fin 1, ∃ part, solveUnlabelled (combLap M) m (fun v => Y v j) = .ok part := fun j =>
    solveUnlabelled_comb hM ha ⟨u, hu'⟩ _
  choose part hpart using hpart
  have hseq : seqFin 1 (fun j => solveUnlabelled (combLap M) m fun v => Y v j) = .ok part := by
    rw [seqFin_ok]; exact hpart
  have hr : regression2 cg (combLap M) Y m 0 = .error .valueError := by
    unfold regression2
    rw [if_neg (lt_irrefl _), dif_pos rfl]
    simp only [Fin.cast_eq_self]
    rw [if_neg (by omega), hseq]
    simp only
    exact if_pos ⟨trivial, (by omega : Fintype.card (Unlabelled m) ≠ 1)⟩
  unfold classification
  rw [dif_pos rfl]
  have : (fun v : Fin n => if m (v.cast rfl) = true then (0 : ℤ) else 0) = fun _ => ((0 : ℕ) : ℤ) := by
    funext v; simp
  rw [this, hY]
  simp only [hr]

end Classification

end PyGSP
