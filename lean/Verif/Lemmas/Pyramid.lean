import Verif.Lemmas.Interp

/-! # The pyramid -/

namespace PyGSP

open Matrix Spec GState Reduction Learning

variable {n k : ℕ} {S : Solvers n}

theorem getBasis_L (S : Solvers n) (s : GState n) : (s.getBasis S).2.L = s.L := by
  unfold getBasis
  split
  · rfl
  · have := computeFourierBasis_L S none s
    simp only
    split <;> exact this

theorem Bank.ops_L {f : Bank} {method : FMethod} {order : ℕ} {s s' : GState n} {M} (h : f.ops S method order s = (.ok M, s')) :
    s'.L = s.L := by
  cases method with
  | exact =>
    obtain ⟨b, y, h1, -⟩ := Bank.ops_exact h
    have := getBasis_L S s
    rwa [h1] at this
  | chebyshev =>
    obtain ⟨l, y, h1, -⟩ := Bank.ops_cheb h
    exact (lmaxNum_stored h1).2.1
  | other nm => simp [Bank.ops] at h

namespace Reduction

/-- what a successful legacy analysis has computed -/
theorem analysis_inv {f : Bank} {a r : Arr} {method : FMethod} {order : ℕ} {s s' : GState n}
    (h : analysis S f a method order s = (.ok r, s')) :
    ∃ sig M, parseSignal n f.Nf a = .ok sig ∧ f.ops S method order s = (.ok M, s') ∧
      (Bank.act M sig).squeeze.ndim ≠ 0 ∧ r = swapReshape (to3d (Bank.act M sig).squeeze) := by
  unfold analysis at h
  rw [Bank.filter_eq] at h
  cases hp : parseSignal n f.Nf a with
  | error e => simp [hp] at h
  | ok sig =>
    rcases ho : f.ops S method order s with ⟨_ | M, s1⟩
    · simp [hp, ho] at h
    · simp only [hp, ho] at h
      split at h
      · simp at h
      · rename_i hd
        simp only [Prod.mk.injEq, Except.ok.injEq] at h
        exact ⟨sig, M, rfl, by rw [← h.2], hd, h.1.symm⟩

theorem analysis_intro {f : Bank} {a : Arr} {method : FMethod} {order : ℕ} {s s' : GState n} {sig M}
    (h1 : parseSignal n f.Nf a = .ok sig) (h2 : f.ops S method order s = (.ok M, s'))
    (h3 : (Bank.act M sig).squeeze.ndim ≠ 0) :
    analysis S f a method order s = (.ok (swapReshape (to3d (Bank.act M sig).squeeze)), s') := by
  unfold analysis
  rw [Bank.filter_eq, h1]
  simp only [h2]
  rw [if_neg h3]

theorem interpolate_inv {f r : Arr} {ind : Fin k → Fin n} {order : ℕ} {eps : ℝ} {method : FMethod} {s s' : GState n}
    (h : interpolate S true f ind order eps method s = (.ok r, s')) :
    ∃ K a, kronMatrix (s.L + eps • (1 : Matrix (Fin n) (Fin n) ℝ)) ind = .ok K ∧ scatterArr K ind f = .ok a ∧
      analysis S (Bank.ofArg (.one (greenKernel eps))) a method order s = (.ok r, s') := by
  unfold interpolate at h
  rw [if_neg (by simp)] at h
  cases hK : kronMatrix (s.L + eps • (1 : Matrix (Fin n) (Fin n) ℝ)) ind with
  | error e => simp [hK] at h
  | ok K =>
    simp only [hK] at h
    cases ha : scatterArr K ind f with
    | error e => simp [ha] at h
    | ok a =>
      simp only [ha] at h
      exact ⟨K, a, rfl, ha, h⟩

theorem interpolate_intro {f r : Arr} {ind : Fin k → Fin n} {order : ℕ} {eps : ℝ} {method : FMethod} {s s' : GState n} {K a}
    (h1 : kronMatrix (s.L + eps • (1 : Matrix (Fin n) (Fin n) ℝ)) ind = .ok K) (h2 : scatterArr K ind f = .ok a)
    (h3 : analysis S (Bank.ofArg (.one (greenKernel eps))) a method order s = (.ok r, s')) :
    interpolate S true f ind order eps method s = (.ok r, s') := by
  unfold interpolate
  rw [if_neg (by simp), h1]
  simp only [h2]
  exact h3

/-- the same interpolation again gives the same result; with exact filtering the order does not matter -/
theorem interpolate_again {f r : Arr} {ind : Fin k → Fin n} {order order' : ℕ} {eps : ℝ} {method : FMethod} {s s' : GState n}
    (ho : method = .exact ∨ order = order')
    (h : interpolate S true f ind order eps method s = (.ok r, s')) :
    interpolate S true f ind order' eps method s' = (.ok r, s') := by
  obtain ⟨K, a, h1, h2, h3⟩ := interpolate_inv h
  obtain ⟨sig, M, h4, h5, h6, rfl⟩ := analysis_inv h3
  have hops : (Bank.ofArg (.one (greenKernel eps))).ops S method order' s' = (.ok M, s') := by
    rcases ho with rfl | rfl
    · exact Bank.ops_again (order := order) h5
    · exact Bank.ops_again h5
  exact interpolate_intro (by rw [Bank.ops_L h5]; exact h1) h2 (analysis_intro h4 hops h6)

/-- a column -/
def IsCol (n : ℕ) (a : Arr) : Prop := ∃ x : Fin n → ℝ, a = Arr.of2 fun v (_ : Fin 1) => x v

/-- the matrix applied by a filter with one kernel -/
theorem analysis_2d {m : ℕ} {g : Kernel} {x : Fin n → Fin m → ℝ} {r : Arr} {method : FMethod} {order : ℕ} {s s' : GState n}
    (h : analysis S (Bank.ofArg (.one g)) (Arr.of2 x) method order s = (.ok r, s')) (hn : n ≠ 1) :
    (m = 1 → IsCol n r) ∧ ∃ r0, IsCol r0 r := by
  obtain ⟨sig, M, h4, h5, h6, -⟩ := analysis_inv h
  by_cases hm : m = 1
  · subst hm
    have := analysis_col hn h5 x
    rw [this] at h
    simp only [Prod.mk.injEq, Except.ok.injEq] at h
    exact ⟨fun _ => ⟨_, h.1.symm⟩, _, _, h.1.symm⟩
  · have := analysis_many hn h5 hm x
    rw [this] at h
    simp only [Prod.mk.injEq, Except.ok.injEq] at h
    exact ⟨fun h => absurd h hm, _, fun i => _, h.1.symm⟩

/-- a successful analysis of 2-D signals needs more than one vertex, unless there are several signals -/
theorem analysis_n1 {g : Kernel} {x : Fin n → Fin 1 → ℝ} {r : Arr} {method : FMethod} {order : ℕ} {s s' : GState n}
    (h : analysis S (Bank.ofArg (.one g)) (Arr.of2 x) method order s = (.ok r, s')) : n ≠ 1 := by
  rintro rfl
  obtain ⟨sig, M, h4, h5, h6, -⟩ := analysis_inv h
  rw [parse_of2_analysis _ _ (.inl rfl)] at h4
  cases h4
  exact h6 (by simp [Bank.act, Arr.squeeze, Arr.of3, Arr.ndim, Bank.ofArg, Bank.Nf])

/-- interpolating a column gives a column -/
theorem interpolate_col {f r : Arr} {ind : Fin k → Fin n} {order : ℕ} {eps : ℝ} {method : FMethod} {s s' : GState n}
    (hf : IsCol k f) (h : interpolate S true f ind order eps method s = (.ok r, s')) : IsCol n r ∧ n ≠ 1 := by
  obtain ⟨K, a, h1, h2, h3⟩ := interpolate_inv h
  obtain ⟨x, rfl⟩ := hf
  rw [scatterArr_of2] at h2
  simp only [Except.ok.injEq] at h2
  subst h2
  have hn := analysis_n1 h3
  exact ⟨(analysis_2d h3 hn).1 rfl, hn⟩

theorem takeRows_col {r0 : ℕ} {low ca : Arr} (hl : IsCol r0 low) {ind : Fin k → ℕ} (h : takeRows low ind = .ok ca) : IsCol k ca := by
  obtain ⟨y, rfl⟩ := hl
  unfold takeRows at h
  change (if ∀ i, ind i < r0 then _ else _) = _ at h
  split at h
  · rename_i hb
    simp only [Except.ok.injEq] at h
    subst h
    refine ⟨fun i => y ⟨ind i, hb i⟩, ?_⟩
    ext1
    · rfl
    · funext idx
      match idx with
      | [] => rfl
      | [i] => rfl
      | [i, j] =>
        simp only [Arr.of2]
        by_cases hi : i < k
        · rw [dif_pos hi]
          by_cases hj : j < 1
          · rw [dif_pos ⟨hb _, hj⟩, dif_pos ⟨hi, hj⟩]
          · rw [dif_neg (by tauto), dif_neg (by tauto)]
        · rw [dif_neg hi, dif_neg (by tauto)]
      | i :: j :: l :: t => rfl
  · simp at h

/-! ### broadcasting -/

theorem broadcast_right (op : ℝ → ℝ → ℝ) {m : ℕ} (x : Fin n → Fin m → ℝ) (y : Fin n → ℝ) :
    broadcast op (Arr.of2 x) (Arr.of2 fun v (_ : Fin 1) => y v) = .ok (Arr.of2 fun v j => op (x v j) (y v)) := by
  have hs : bshape (Arr.of2 x).shape.reverse (Arr.of2 fun v (_ : Fin 1) => y v).shape.reverse = some [m, n] := by
    by_cases hm : m = 1
    · subst hm; simp [Arr.of2, bshape]
    · simp [Arr.of2, bshape, hm]
  unfold broadcast
  rw [hs]
  refine congrArg Except.ok ?_
  ext1
  · rfl
  · funext idx
    simp only [Arr.of2, List.reverse_cons, List.reverse_nil, List.nil_append, List.cons_append]
    match idx with
    | [] => rfl
    | [i] => simp [inBounds]
    | [i, j] =>
      simp only [inBounds, Bool.and_true, Bool.and_eq_true, decide_eq_true_eq]
      by_cases h : i < n ∧ j < m
      · have hn1 : (if n = 1 then 0 else i) = i := by split <;> omega
        have hm1 : (if m = 1 then 0 else j) = j := by split <;> omega
        simp [h.1, h.2, bidx, hn1, hm1]
      · rw [if_neg h, dif_neg h]
    | i :: j :: l :: t => simp [inBounds]

theorem broadcast_left (op : ℝ → ℝ → ℝ) {m : ℕ} (x : Fin n → Fin m → ℝ) (y : Fin n → ℝ) :
    broadcast op (Arr.of2 fun v (_ : Fin 1) => y v) (Arr.of2 x) = .ok (Arr.of2 fun v j => op (y v) (x v j)) := by
  have hs : bshape (Arr.of2 fun v (_ : Fin 1) => y v).shape.reverse (Arr.of2 x).shape.reverse = some [m, n] := by
    by_cases hm : m = 1
    · subst hm; simp [Arr.of2, bshape]
    · simp [Arr.of2, bshape, Ne.symm hm]
  unfold broadcast
  rw [hs]
  refine congrArg Except.ok ?_
  ext1
  · rfl
  · funext idx
    simp only [Arr.of2, List.reverse_cons, List.reverse_nil, List.nil_append, List.cons_append]
    match idx with
    | [] => rfl
    | [i] => simp [inBounds]
    | [i, j] =>
      simp only [inBounds, Bool.and_true, Bool.and_eq_true, decide_eq_true_eq]
      by_cases h : i < n ∧ j < m
      · have hn1 : (if n = 1 then 0 else i) = i := by split <;> omega
        have hm1 : (if m = 1 then 0 else j) = j := by split <;> omega
        simp [h.1, h.2, bidx, hn1, hm1]
      · rw [if_neg h, dif_neg h]
    | i :: j :: l :: t => simp [inBounds]

/-- a vector and a column: all the pairs -/
theorem broadcast_pairs (op : ℝ → ℝ → ℝ) (hn : n ≠ 1) (x : Fin n → ℝ) (y : Fin n → ℝ) :
    broadcast op (Arr.of1 x) (Arr.of2 fun v (_ : Fin 1) => y v) = .ok (Arr.of2 fun v w => op (x w) (y v)) := by
  have hs : bshape (Arr.of1 x).shape.reverse (Arr.of2 fun v (_ : Fin 1) => y v).shape.reverse = some [n, n] := by
    simp [Arr.of1, Arr.of2, bshape, hn]
  unfold broadcast
  rw [hs]
  refine congrArg Except.ok ?_
  ext1
  · rfl
  · funext idx
    simp only [Arr.of2, Arr.of1, List.reverse_cons, List.reverse_nil, List.nil_append, List.cons_append]
    match idx with
    | [] => rfl
    | [i] => simp [inBounds]
    | [i, j] =>
      simp only [inBounds, Bool.and_true, Bool.and_eq_true, decide_eq_true_eq]
      by_cases h : i < n ∧ j < n
      · simp [h.1, h.2, bidx, hn]
      · rw [if_neg h, dif_neg h]
    | i :: j :: l :: t => simp [inBounds]

end Reduction

end PyGSP
