import Verif.Lemmas.Difference

namespace PyGSP

open Matrix Spec

variable {n : ℕ}

theorem npMaxStep_fin (a b : ℝ) : npMaxStep (.fin a) (.fin b) = .fin (max a b) := by
  unfold npMaxStep
  rw [if_neg (by simp [PyNum.isNaN])]
  by_cases h : a < b
  · rw [if_pos (by simp [PyNum.lt, h]), max_eq_right h.le]
  · rw [if_neg (by simp [PyNum.lt, h]), max_eq_left (not_lt.1 h)]

theorem npMaxStep_nan_left (x : PyNum ℝ) : npMaxStep .nan x = .nan := by
  unfold npMaxStep
  rw [if_pos (by simp [PyNum.isNaN])]

theorem npMaxStep_nan_right (x : PyNum ℝ) : npMaxStep x .nan = .nan := by
  unfold npMaxStep
  rw [if_pos (by simp [PyNum.isNaN])]

theorem pyMinStep_fin (a b : ℝ) : pyMinStep (.fin a) (.fin b) = .fin (if b < a then b else a) := by
  unfold pyMinStep
  by_cases h : b < a
  · rw [if_pos (by simp [PyNum.lt, h]), if_pos h]
  · rw [if_neg (by simp [PyNum.lt, h]), if_neg h]

theorem pyMinStep_nan (a : PyNum ℝ) : pyMinStep a .nan = a := by
  unfold pyMinStep
  rw [if_neg (by simp [PyNum.lt])]

/-- `np.max` over finite values is their maximum. -/
theorem npMax_fin_aux (l : List ℝ) (b : ℝ) :
    (l.map PyNum.fin).foldl npMaxStep (.fin b) = PyNum.fin (l.foldl max b) := by
  induction l generalizing b with
  | nil => rfl
  | cons x l ih => rw [List.map_cons, List.foldl_cons, npMaxStep_fin, ih, List.foldl_cons]

theorem foldl_max_spec (l : List ℝ) (b : ℝ) :
    (b ≤ l.foldl max b) ∧ (∀ x ∈ l, x ≤ l.foldl max b) ∧ (l.foldl max b = b ∨ l.foldl max b ∈ l) := by
  induction l generalizing b with
  | nil => simp
  | cons x l ih =>
    obtain ⟨h1, h2, h3⟩ := ih (max b x)
    simp only [List.foldl_cons, List.mem_cons, forall_eq_or_imp]
    refine ⟨(le_max_left _ _).trans h1, ⟨(le_max_right _ _).trans h1, h2⟩, ?_⟩
    rcases h3 with h3 | h3
    · rw [h3]
      rcases max_choice b x with h | h <;> rw [h] <;> simp
    · exact .inr (.inr h3)

theorem npMax_fin (l : List ℝ) (hl : l ≠ []) :
    ∃ m, npMax (l.map PyNum.fin) = .ok (.fin m) ∧ m ∈ l ∧ ∀ x ∈ l, x ≤ m := by
  match l, hl with
  | b :: l, _ =>
    obtain ⟨h1, h2, h3⟩ := foldl_max_spec l b
    refine ⟨l.foldl max b, ?_, ?_, ?_⟩
    · simp only [List.map_cons, npMax]
      rw [npMax_fin_aux]
    · rcases h3 with h3 | h3 <;> simp [h3]
    · intro x hx
      rcases List.mem_cons.1 hx with rfl | hx
      · exact h1
      · exact h2 x hx

theorem npMax_nan_aux (l : List (PyNum ℝ)) : l.foldl npMaxStep .nan = .nan := by
  induction l with
  | nil => rfl
  | cons x l ih => rw [List.foldl_cons, npMaxStep_nan_left, ih]

theorem npMax_nan_aux2 (l : List (PyNum ℝ)) (b : PyNum ℝ) (h : b = .nan ∨ PyNum.nan ∈ l) :
    l.foldl npMaxStep b = .nan := by
  induction l generalizing b with
  | nil => rcases h with h | h; exact h; simp at h
  | cons x l ih =>
    rw [List.foldl_cons]
    rcases h with h | h
    · rw [h, npMaxStep_nan_left]
      exact npMax_nan_aux l
    · rcases List.mem_cons.1 h with h | h
      · rw [← h, npMaxStep_nan_right]
        exact npMax_nan_aux l
      · exact ih _ (.inr h)

theorem npMax_nan (l : List (PyNum ℝ)) (h : PyNum.nan ∈ l) : npMax l = .ok .nan := by
  match l with
  | [] => simp at h
  | b :: l =>
    simp only [npMax]
    rw [npMax_nan_aux2]
    rcases List.mem_cons.1 h with h | h
    · exact .inl h.symm
    · exact .inr h

/-- Python `min` of a finite first element and of later elements that are finite or NaN is one of the finite
elements, and is at most each finite element. -/
theorem pyMin_spec (l : List (PyNum ℝ)) (b : ℝ) (hl : ∀ x ∈ l, x = .nan ∨ ∃ r, x = .fin r) :
    ∃ m, pyMin (.fin b :: l) = .ok (.fin m) ∧ (m = b ∨ PyNum.fin m ∈ l) ∧ m ≤ b ∧ ∀ r, PyNum.fin r ∈ l → m ≤ r := by
  induction l generalizing b with
  | nil => exact ⟨b, rfl, .inl rfl, le_refl _, by simp⟩
  | cons x l ih =>
    have hl' : ∀ x ∈ l, x = .nan ∨ ∃ r, x = .fin r := fun y hy => hl y (by simp [hy])
    rcases hl x (by simp) with rfl | ⟨r, rfl⟩
    · obtain ⟨m, h1, h2, h3, h4⟩ := ih b hl'
      refine ⟨m, ?_, ?_, h3, ?_⟩
      · simp only [pyMin, List.foldl_cons, pyMinStep_nan] at h1 ⊢
        exact h1
      · rcases h2 with h2 | h2
        · exact .inl h2
        · exact .inr (by simp [h2])
      · intro r hr
        simp only [List.mem_cons, reduceCtorEq, false_or] at hr
        exact h4 r hr
    · by_cases hrb : r < b
      · obtain ⟨m, h1, h2, h3, h4⟩ := ih r hl'
        refine ⟨m, ?_, ?_, h3.trans hrb.le, ?_⟩
        · simp only [pyMin, List.foldl_cons, pyMinStep_fin, if_pos hrb] at h1 ⊢
          exact h1
        · rcases h2 with h2 | h2
          · exact .inr (by simp [h2])
          · exact .inr (by simp [h2])
        · intro r' hr
          simp only [List.mem_cons, PyNum.fin.injEq] at hr
          rcases hr with rfl | hr
          · exact h3
          · exact h4 r' hr
      · obtain ⟨m, h1, h2, h3, h4⟩ := ih b hl'
        refine ⟨m, ?_, ?_, h3, ?_⟩
        · simp only [pyMin, List.foldl_cons, pyMinStep_fin, if_neg hrb] at h1 ⊢
          exact h1
        · rcases h2 with h2 | h2
          · exact .inl h2
          · exact .inr (by simp [h2])
        · intro r' hr
          simp only [List.mem_cons, PyNum.fin.injEq] at hr
          rcases hr with rfl | hr
          · exact h3.trans (not_lt.1 hrb)
          · exact h4 r' hr

/-- eigenvalue zero or positive: the bound 0 suffices when there is no edge -/
theorem eig_of_no_edges {M : Matrix (Fin n) (Fin n) ℝ} (h0 : ∀ i j, M i j = 0) {l : ℝ}
    (h : IsEigenvalue (combLap M) l) : l = 0 := by
  obtain ⟨x, hx, he⟩ := h
  obtain ⟨i, hi⟩ : ∃ i, x i ≠ 0 := by
    by_contra h; push Not at h; exact hx (funext h)
  have : (combLap M *ᵥ x) i = l * x i := by rw [he]; rfl
  rw [combLap_mulVec] at this
  have hw : ∀ j, wsym M i j = 0 := fun j => by unfold wsym; rw [h0, h0]; norm_num
  simp only [hw, zero_mul, Finset.sum_const_zero] at this
  rcases mul_eq_zero.1 this.symm with h | h
  · exact h
  · exact absurd h hi

theorem upperBound_comb (g : Graph n ℝ) (hg : g.Built) (hlt : g.lapType = .combinatorial)
    (hW : NonnegW g.W.dense) (hn : 0 < n) :
    ∃ B, g.upperBound = .ok (.fin B) ∧ ∀ l, IsEigenvalue (combLap g.W.dense) l → l ≤ B := by
  have hne : Nonempty (Fin n) := ⟨⟨0, hn⟩⟩
  have hV : List.finRange n ≠ [] := by
    intro h; have := congrArg List.length h; simp at this; omega
  -- bound 1
  obtain ⟨w, hw1, hw2, hw3⟩ := npMax_fin ((List.finRange n).flatMap fun i => (List.finRange n).map fun j => g.W.dense i j)
    (by
      intro h
      rw [List.flatMap_eq_nil_iff] at h
      have := h ⟨0, hn⟩ (List.mem_finRange _)
      simp at this; omega)
  rw [List.map_flatMap] at hw1
  simp only [List.map_map, Function.comp_def] at hw1
  have hwmax : ∀ i j, g.W.dense i j ≤ w := by
    intro i j
    apply hw3
    rw [List.mem_flatMap]
    exact ⟨i, List.mem_finRange _, List.mem_map.2 ⟨j, List.mem_finRange _, rfl⟩⟩
  have hw0 : 0 ≤ w := (hW ⟨0, hn⟩ ⟨0, hn⟩).trans (hwmax _ _)
  -- bound 2
  obtain ⟨d, hd1, hd2, hd3⟩ := npMax_fin ((List.finRange n).map fun i => dw g.W i) (by simpa using hV)
  rw [List.map_map] at hd1
  have hdmax : ∀ i, wdeg g.W.dense i ≤ d := by
    intro i
    rw [← dw_eq]
    exact hd3 _ (List.mem_map.2 ⟨i, List.mem_finRange _, rfl⟩)
  have hd0 : 0 ≤ d := (wdeg_nonneg hW ⟨0, hn⟩).trans (hdmax _)
  -- bound 3
  obtain ⟨es, hes1, hes2, -, hes4⟩ := C04_edge_list g hg
  have hb3 : ∃ b3, g.edgeBounds = .ok b3 ∧
      (∀ x ∈ b3, ∃ r, x = .fin r ∧ ∀ l, IsEigenvalue (combLap g.W.dense) l → l ≤ r) := by
    unfold Graph.edgeBounds
    split
    · rename_i hpos
      obtain ⟨r, hr1, hr2, hr3⟩ := npMax_fin (es.map fun e => dw g.W e.1 + dw g.W e.2.1)
        (by intro h; rw [List.map_eq_nil_iff] at h; rw [h] at hes2; simp at hes2; omega)
      rw [List.map_map] at hr1
      refine ⟨[.fin r], ?_, ?_⟩
      · rw [hes1]
        show (npMax _ >>= _) = _
        rw [show (es.map fun e => PyNum.fin (dw g.W e.1 + dw g.W e.2.1)) = _ from rfl]
        erw [hr1]
        rfl
      · intro x hx
        rw [List.mem_singleton] at hx
        subst hx
        refine ⟨r, rfl, fun l hl => ?_⟩
        have hmax : ∀ i j, wsym g.W.dense i j ≠ 0 → wdeg g.W.dense i + wdeg g.W.dense j ≤ r := by
          intro i j hij
          have : g.W.dense i j ≠ 0 ∨ g.W.dense j i ≠ 0 := by
            by_contra hc
            push Not at hc
            apply hij
            unfold wsym; rw [hc.1, hc.2]; norm_num
          have hmem : ∀ a b, g.W.dense a b ≠ 0 → wdeg g.W.dense a + wdeg g.W.dense b ≤ r := by
            intro a b hab
            by_cases hu : Undirected g.W.dense
            · rcases le_total a b with hle | hle
              · have := hr3 _ (List.mem_map.2 ⟨(a, b, g.W.dense a b), (hes4 a b _).2 ⟨rfl, hab, fun _ => hle⟩, rfl⟩)
                simpa only [dw_eq] using this
              · have := hr3 _ (List.mem_map.2 ⟨(b, a, g.W.dense b a), (hes4 b a _).2 ⟨rfl, by rw [hu]; exact hab, fun _ => hle⟩, rfl⟩)
                rw [add_comm]
                simpa only [dw_eq] using this
            · have := hr3 _ (List.mem_map.2 ⟨(a, b, g.W.dense a b), (hes4 a b _).2 ⟨rfl, hab, fun h => absurd h hu⟩, rfl⟩)
              simpa only [dw_eq] using this
          rcases this with h | h
          · exact hmem i j h
          · rw [add_comm]; exact hmem j i h
        have hr0 : 0 ≤ r := by
          obtain ⟨e, he, hee⟩ := List.mem_map.1 hr2
          rw [← hee, dw_eq, dw_eq]
          exact add_nonneg (wdeg_nonneg hW _) (wdeg_nonneg hW _)
        rcases le_or_gt l 0 with h | h
        · exact h.trans hr0
        · obtain ⟨i, j, hij, hle⟩ := eig_le_anderson_morley hW hl h
          exact hle.trans (hmax i j hij)
    · exact ⟨[], rfl, by simp⟩
  obtain ⟨b3, hb31, hb32⟩ := hb3
  -- bound 4
  have hb4 : ∃ b4, npMax ((List.finRange n).map fun i => PyNum.fin (dw g.W i) +
        npDiv (∑ j, lapWeights g.W i j * dw g.W j) (dw g.W i)) = .ok b4 ∧
      (b4 = .nan ∨ ∃ r, b4 = .fin r ∧ ∀ l, IsEigenvalue (combLap g.W.dense) l → l ≤ r) := by
    by_cases hiso : ∃ i, wdeg g.W.dense i = 0
    · obtain ⟨i, hi⟩ := hiso
      refine ⟨.nan, npMax_nan _ ?_, .inl rfl⟩
      rw [List.mem_map]
      refine ⟨i, List.mem_finRange _, ?_⟩
      have h1 : ∑ j, lapWeights g.W i j * dw g.W j = 0 := by
        refine Finset.sum_eq_zero fun j _ => ?_
        rw [lapWeights_apply, wsym_eq_zero_of_wdeg hW hi, zero_mul]
      rw [h1, dw_eq, hi]
      unfold npDiv
      rw [if_pos rfl, if_pos rfl]
      rfl
    · push Not at hiso
      have hfin : ((List.finRange n).map fun i => PyNum.fin (dw g.W i) +
          npDiv (∑ j, lapWeights g.W i j * dw g.W j) (dw g.W i))
          = ((List.finRange n).map fun i => wdeg g.W.dense i +
              (∑ j, wsym g.W.dense i j * wdeg g.W.dense j) / wdeg g.W.dense i).map PyNum.fin := by
        rw [List.map_map]
        refine List.map_congr_left fun i _ => ?_
        unfold npDiv
        rw [dw_eq, if_neg (hiso i)]
        simp only [lapWeights_apply, dw_eq, Function.comp]
        rfl
      rw [hfin]
      obtain ⟨r, hr1, hr2, hr3⟩ := npMax_fin ((List.finRange n).map fun i => wdeg g.W.dense i +
              (∑ j, wsym g.W.dense i j * wdeg g.W.dense j) / wdeg g.W.dense i) (by simpa using hV)
      refine ⟨.fin r, hr1, .inr ⟨r, rfl, fun l hl => ?_⟩⟩
      obtain ⟨i, hi⟩ := eig_le_merris hW hiso hl
      exact hi.trans (hr3 _ (List.mem_map.2 ⟨i, List.mem_finRange _, rfl⟩))
  obtain ⟨b4, hb41, hb42⟩ := hb4
  have hmin := pyMin_spec ([.fin (2 * d)] ++ b3 ++ [b4]) (n * w) (by
    intro x hx
    simp only [List.mem_append, List.mem_singleton] at hx
    rcases hx with (rfl | hx) | rfl
    · exact .inr ⟨_, rfl⟩
    · obtain ⟨r, hr, -⟩ := hb32 x hx
      exact .inr ⟨r, hr⟩
    · rcases hb42 with h | ⟨r, h, -⟩
      · exact .inl h
      · exact .inr ⟨r, h⟩)
  obtain ⟨B, hB1, hB2, hB3, hB4⟩ := hmin
  refine ⟨B, ?_, ?_⟩
  · unfold Graph.upperBound
    rw [hlt]
    simp only
    rw [hw1]
    simp only [bind, Except.bind]
    erw [hd1]
    simp only
    rw [hb31]
    simp only
    rw [hb41]
    simp only
    exact hB1
  · intro l hl
    rcases hB2 with h | h
    · rw [h]
      rcases le_or_gt l 0 with h0 | h0
      · exact h0.trans (mul_nonneg (Nat.cast_nonneg _) hw0)
      · exact eig_le_complete hW hwmax hl h0
    · simp only [List.mem_append, List.mem_singleton, PyNum.fin.injEq] at h
      rcases h with (h | h) | h
      · rw [h]
        obtain ⟨i, hi⟩ := eig_le_gershgorin hW hl
        have := hdmax i
        linarith
      · obtain ⟨r, hr, hr2⟩ := hb32 _ h
        rw [PyNum.fin.inj hr]
        exact hr2 l hl
      · rcases hb42 with h' | ⟨r, h', hr2⟩
        · rw [h'] at h; simp at h
        · rw [h'] at h; rw [PyNum.fin.inj h]; exact hr2 l hl

end PyGSP
