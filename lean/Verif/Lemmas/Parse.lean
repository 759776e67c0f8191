import Verif.Lemmas.FilterAlg

/-!
# The shape analysis of `filter`, for every array
-/

namespace PyGSP

open Matrix Spec Polynomial

variable {n : ℕ}

theorem parse_dim0 (Nf : ℕ) {a : Arr} (h : a.shape = []) : parseSignal n Nf a = .error .indexError := by
  unfold parseSignal; rw [h]

theorem parse_wrong (Nf : ℕ) {a : Arr} {d : ℕ} {t} (h : a.shape = d :: t) (hd : d ≠ n) :
    parseSignal n Nf a = .error .valueError := by
  unfold parseSignal; rw [h]; simp only; rw [if_pos hd]

theorem parse_dim1 (Nf : ℕ) {a : Arr} (h : a.shape = [n]) :
    parseSignal n Nf a = .ok (.analysis 1 fun i _ => a.val [i]) := by
  obtain ⟨sh, val⟩ := a
  simp only at h
  subst h
  simp [parseSignal, Arr.needsFeatureDim, Arr.ndim, Arr.withSignalDim, Arr.expandDims, Arr.toSig, List.insertIdx,
    List.eraseIdx]

theorem parse_dim2_analysis (Nf : ℕ) {a : Arr} {k : ℕ} (h : a.shape = [n, k]) (hk : k = 1 ∨ k ≠ Nf) :
    parseSignal n Nf a = .ok (.analysis k fun i j => a.val [i, j]) := by
  obtain ⟨sh, val⟩ := a
  simp only at h
  subst h
  by_cases h1 : k = 1
  · subst h1
    have : ∀ j : Fin 1, (j : ℕ) = 0 := fun j => by omega
    simp [parseSignal, Arr.needsFeatureDim, Arr.ndim, Arr.last, Arr.withSignalDim, Arr.expandDims, Arr.toSig,
      List.insertIdx, List.eraseIdx, this]
  · have h2 : k ≠ Nf := hk.resolve_left h1
    simp [parseSignal, Arr.needsFeatureDim, Arr.ndim, Arr.last, Arr.withSignalDim, Arr.expandDims, Arr.toSig,
      List.insertIdx, List.eraseIdx, h1, h2]

theorem parse_dim2_synthesis {Nf : ℕ} {a : Arr} (h : a.shape = [n, Nf]) (h1 : Nf ≠ 1) :
    parseSignal n Nf a = .ok (.synthesis 1 fun i _ l => a.val [i, l]) := by
  obtain ⟨sh, val⟩ := a
  simp only at h
  subst h
  simp [parseSignal, Arr.needsFeatureDim, Arr.ndim, Arr.last, Arr.withSignalDim, Arr.expandDims, Arr.toSig,
      List.insertIdx, List.eraseIdx, h1]

theorem parse_dim3_analysis (Nf : ℕ) {a : Arr} {k : ℕ} (h : a.shape = [n, k, 1]) :
    parseSignal n Nf a = .ok (.analysis k fun i j => a.val [i, j, 0]) := by
  obtain ⟨sh, val⟩ := a
  simp only at h
  subst h
  simp [parseSignal, Arr.needsFeatureDim, Arr.ndim, Arr.last, Arr.withSignalDim, Arr.toSig]

theorem parse_dim3_synthesis {Nf : ℕ} {a : Arr} {k : ℕ} (h : a.shape = [n, k, Nf]) (h1 : Nf ≠ 1) :
    parseSignal n Nf a = .ok (.synthesis k fun i j l => a.val [i, j, l]) := by
  obtain ⟨sh, val⟩ := a
  simp only at h
  subst h
  simp [parseSignal, Arr.needsFeatureDim, Arr.ndim, Arr.last, Arr.withSignalDim, Arr.toSig, h1]

theorem parse_dim3_bad {Nf : ℕ} {a : Arr} {k q : ℕ} (h : a.shape = [n, k, q]) (h1 : q ≠ 1) (h2 : q ≠ Nf) :
    parseSignal n Nf a = .error .valueError := by
  obtain ⟨sh, val⟩ := a
  simp only at h
  subst h
  simp [parseSignal, Arr.needsFeatureDim, Arr.ndim, Arr.last, h1, h2]

theorem toSig_bad {Nf : ℕ} {a : Arr} (h : a.shape.length ≠ 3) : a.toSig n Nf = .error .valueError := by
  unfold Arr.toSig
  split
  · rename_i h'; simp [h'] at h
  · rfl

theorem parse_dim4 {Nf : ℕ} {a : Arr} (h : 4 ≤ a.ndim) : parseSignal n Nf a = .error .valueError := by
  unfold parseSignal
  unfold Arr.ndim at h
  split
  · rename_i h'; simp [h'] at h
  · split
    · rfl
    · split
      · split
        · rfl
        · rw [toSig_bad]
          unfold Arr.withSignalDim Arr.ndim Arr.expandDims
          simp only
          rw [if_neg (by rw [List.length_insertIdx]; split <;> omega), List.length_insertIdx]
          split <;> omega
      · rw [toSig_bad]
        unfold Arr.withSignalDim Arr.ndim
        rw [if_neg (by omega)]; omega

/-- the shapes that `filter` accepts -/
def ShapeOK (n Nf : ℕ) (shape : List ℕ) : Prop :=
  shape = [n] ∨ (∃ k, shape = [n, k]) ∨ (∃ k, shape = [n, k, 1]) ∨ ∃ k, shape = [n, k, Nf]

theorem parse_cases (n Nf : ℕ) (a : Arr) :
    (ShapeOK n Nf a.shape ∧ ∃ sig, parseSignal n Nf a = .ok sig) ∨
    (¬ ShapeOK n Nf a.shape ∧ parseSignal n Nf a = .error (if a.shape = [] then .indexError else .valueError)) := by
  rcases hs : a.shape with _ | ⟨d, t⟩
  · right; exact ⟨by rintro (h | ⟨k, h⟩ | ⟨k, h⟩ | ⟨k, h⟩) <;> simp at h, by rw [parse_dim0 Nf hs]; rfl⟩
  · by_cases hd : d = n
    · subst hd
      rcases t with _ | ⟨k, _ | ⟨q, _ | ⟨r, t⟩⟩⟩
      · left; exact ⟨.inl rfl, _, parse_dim1 Nf hs⟩
      · left
        refine ⟨.inr (.inl ⟨k, rfl⟩), ?_⟩
        by_cases hk : k = 1 ∨ k ≠ Nf
        · exact ⟨_, parse_dim2_analysis Nf hs hk⟩
        · push Not at hk
          obtain ⟨h1, rfl⟩ := hk
          exact ⟨_, parse_dim2_synthesis hs h1⟩
      · by_cases h1 : q = 1
        · subst h1; left; exact ⟨.inr (.inr (.inl ⟨k, rfl⟩)), _, parse_dim3_analysis Nf hs⟩
        · by_cases h2 : q = Nf
          · subst h2; left; exact ⟨.inr (.inr (.inr ⟨k, rfl⟩)), _, parse_dim3_synthesis hs h1⟩
          · right
            refine ⟨?_, by rw [parse_dim3_bad hs h1 h2]; rfl⟩
            rintro (h | ⟨k, h⟩ | ⟨k, h⟩ | ⟨k, h⟩) <;> simp at h
            · exact h1 h.2
            · exact h2 h.2
      · right
        refine ⟨by rintro (h | ⟨k, h⟩ | ⟨k, h⟩ | ⟨k, h⟩) <;> simp at h, ?_⟩
        rw [parse_dim4 (by simp [Arr.ndim, hs])]; rfl
    · right
      refine ⟨?_, by rw [parse_wrong Nf hs hd]; rfl⟩
      rintro (h | ⟨k, h⟩ | ⟨k, h⟩ | ⟨k, h⟩) <;> (simp at h; exact hd h.1)

/-- two signals of the same kind, with the same number of columns, whose entries are related by `R` -/
inductive Sig.Rel {Nf : ℕ} (R : Fin n → ℝ → ℝ → Prop) : Sig n Nf → Sig n Nf → Prop
  | analysis {ns : ℕ} {x y : Fin n → Fin ns → ℝ} : (∀ i j, R i (x i j) (y i j)) → Rel R (.analysis ns x) (.analysis ns y)
  | synthesis {ns : ℕ} {x y : Fin n → Fin ns → Fin Nf → ℝ} : (∀ i j l, R i (x i j l) (y i j l)) →
      Rel R (.synthesis ns x) (.synthesis ns y)

/-- arrays of the same shape are parsed alike -/
theorem parse_rel {Nf : ℕ} {a b : Arr} (h : a.shape = b.shape) {R : Fin n → ℝ → ℝ → Prop}
    (hR : ∀ (i : Fin n) idx, R i (a.val (i :: idx)) (b.val (i :: idx))) {sa} (ha : parseSignal n Nf a = .ok sa) :
    ∃ sb, parseSignal n Nf b = .ok sb ∧ Sig.Rel R sa sb := by
  rcases parse_cases n Nf a with ⟨hs, -⟩ | ⟨-, hs⟩
  · rcases hs with h1 | ⟨k, h1⟩ | ⟨k, h1⟩ | ⟨k, h1⟩
    · rw [parse_dim1 Nf h1] at ha
      cases ha
      exact ⟨_, parse_dim1 Nf (h ▸ h1), .analysis fun i j => hR _ _⟩
    · by_cases hk : k = 1 ∨ k ≠ Nf
      · rw [parse_dim2_analysis Nf h1 hk] at ha
        cases ha
        exact ⟨_, parse_dim2_analysis Nf (h ▸ h1) hk, .analysis fun i j => hR _ _⟩
      · push Not at hk
        obtain ⟨h2, rfl⟩ := hk
        rw [parse_dim2_synthesis h1 h2] at ha
        cases ha
        exact ⟨_, parse_dim2_synthesis (h ▸ h1) h2, .synthesis fun i j l => hR _ _⟩
    · rw [parse_dim3_analysis Nf h1] at ha
      cases ha
      exact ⟨_, parse_dim3_analysis Nf (h ▸ h1), .analysis fun i j => hR _ _⟩
    · by_cases hk : Nf = 1
      · subst hk
        rw [parse_dim3_analysis 1 h1] at ha
        cases ha
        exact ⟨_, parse_dim3_analysis 1 (h ▸ h1), .analysis fun i j => hR _ _⟩
      · rw [parse_dim3_synthesis h1 hk] at ha
        cases ha
        exact ⟨_, parse_dim3_synthesis (h ▸ h1) hk, .synthesis fun i j l => hR _ _⟩
  · rw [hs] at ha; cases ha

theorem squeeze_row {a : Arr} {m : ℕ} {t} (h : a.shape = m :: t) (hm : m ≠ 1) (v : ℕ) (idx : List ℕ) :
    a.squeeze.val (v :: idx) = a.val (v :: Arr.unsqueeze t idx) := by
  unfold Arr.squeeze
  simp only
  rw [h, unsq_ne hm]

/-! ### locality of polynomials of the Laplacian -/

theorem withinHops_succ (W : Matrix (Fin n) (Fin n) ℝ) (k : ℕ) (i j : Fin n) (h : WithinHops W k i j) :
    WithinHops W (k + 1) i j := ⟨i, .inl rfl, h⟩

theorem withinHops_mono (W : Matrix (Fin n) (Fin n) ℝ) {k l : ℕ} (h : k ≤ l) {i j : Fin n} (hk : WithinHops W k i j) :
    WithinHops W l i j := by
  induction h with
  | refl => exact hk
  | step _ ih => exact withinHops_succ W _ i j ih

theorem laplacian_support {W : Sp n n ℝ} {lt : LapType} {L} (h : laplacian W lt = .ok L) {i j : Fin n}
    (hij : i ≠ j) (h1 : W.dense i j = 0) (h2 : W.dense j i = 0) : L i j = 0 := by
  have hw : lapWeights W i j = 0 := by
    unfold lapWeights symAverage
    split <;> simp [h1, h2]
  unfold laplacian at h
  cases lt with
  | combinatorial =>
    cases h
    simp [hij, hw]
  | normalized =>
    cases h
    simp [Matrix.of_apply, hij, Matrix.mul_diagonal, Matrix.diagonal_mul, hw]
  | other nm => cases h

theorem pow_support {W L : Matrix (Fin n) (Fin n) ℝ} (h : ∀ i j, i ≠ j → W i j = 0 → W j i = 0 → L i j = 0) (k : ℕ) :
    ∀ i j, ¬ WithinHops W k i j → (L ^ k) i j = 0 := by
  induction k with
  | zero => intro i j hij; rw [pow_zero, Matrix.one_apply_ne hij]
  | succ k ih =>
    intro i j hij
    rw [pow_succ', Matrix.mul_apply]
    refine Finset.sum_eq_zero fun l _ => ?_
    by_cases hl : i = l ∨ W i l ≠ 0 ∨ W l i ≠ 0
    · rw [ih l j fun hh => hij ⟨l, hl, hh⟩, mul_zero]
    · push Not at hl
      rw [h i l hl.1 hl.2.1 hl.2.2, zero_mul]

theorem aeval_support {W L : Matrix (Fin n) (Fin n) ℝ} (h : ∀ i j, i ≠ j → W i j = 0 → W j i = 0 → L i j = 0)
    {p : ℝ[X]} {K : ℕ} (hp : p.natDegree ≤ K) {i j : Fin n} (hij : ¬ WithinHops W K i j) : (aeval L p) i j = 0 := by
  rw [aeval_eq_sum_range, Matrix.sum_apply]
  refine Finset.sum_eq_zero fun k hk => ?_
  rw [Matrix.smul_apply, pow_support h k i j, smul_zero]
  intro hh
  exact hij (withinHops_mono W (by have := Finset.mem_range.1 hk; omega) hh)

end PyGSP
