import Verif.Model.Drawings
import Verif.Model.ImgPatches
import Verif.Props.Generators
import Verif.Props.Grid
import Verif.Props.Torus
import Verif.Props.Layout

/-!
# C107: the constructors draw their graphs faithfully

Vertices have different positions, and the positions determine the edges.
-/

namespace PyGSP.Gen

open Matrix Spec Layout

/-! ### chords of the circle -/

theorem sin_chord_le {N m k : ℕ} (h0 : 0 < m) (hm : m < N) (hk : 2 * k < N) :
    Real.sin (Real.pi * m / N) ≤ Real.sin (Real.pi * k / N) ↔ m ≤ k ∨ N ≤ m + k := by
  have hN : (0 : ℝ) < N := by exact_mod_cast (by omega : 0 < N)
  have hpi := Real.pi_pos
  have mono : ∀ a : ℕ, 2 * a ≤ N → (Real.sin (Real.pi * a / N) ≤ Real.sin (Real.pi * k / N) ↔ a ≤ k) := by
    intro a ha
    have hdom : ∀ b : ℕ, 2 * b ≤ N → Real.pi * b / N ∈ Set.Icc (-(Real.pi / 2)) (Real.pi / 2) := by
      intro b hb
      have hb' : (2 : ℝ) * b ≤ N := by exact_mod_cast hb
      constructor
      · have : 0 ≤ Real.pi * b / N := by positivity
        linarith
      · rw [div_le_iff₀ hN]
        nlinarith
    rw [Real.strictMonoOn_sin.le_iff_le (hdom a ha) (hdom k (by omega)), div_le_div_iff_of_pos_right hN, mul_le_mul_iff_right₀ hpi]
    exact_mod_cast Iff.rfl
  by_cases h : 2 * m ≤ N
  · rw [mono m h]
    omega
  · have e : Real.sin (Real.pi * m / N) = Real.sin (Real.pi * (N - m : ℕ) / N) := by
      rw [← Real.sin_pi_sub]
      congr 1
      rw [Nat.cast_sub hm.le]
      field_simp
    rw [e, mono (N - m) (by omega)]
    omega

theorem ndist_cast (i j : ℕ) : ((ndist i j : ℕ) : ℝ) = |(i : ℝ) - j| := by
  unfold ndist
  rcases le_total i j with h | h
  · rw [Nat.sub_eq_zero_of_le h, zero_add, Nat.cast_sub h, abs_of_nonpos (by simpa using h)]
    ring
  · rw [Nat.sub_eq_zero_of_le h, add_zero, Nat.cast_sub h, abs_of_nonneg (by simpa using h)]

theorem chord_sq {N : ℕ} (hN : 0 < N) (i j : ℕ) :
    (Real.cos (i * 2 * Real.pi / N) - Real.cos (j * 2 * Real.pi / N)) ^ 2 + (Real.sin (i * 2 * Real.pi / N) - Real.sin (j * 2 * Real.pi / N)) ^ 2 =
      (2 * Real.sin (Real.pi * ndist i j / N)) ^ 2 := by
  have hN' : (N : ℝ) ≠ 0 := by exact_mod_cast hN.ne'
  have h1 : (2 * Real.sin (Real.pi * ndist i j / N)) ^ 2 = (2 * Real.sin (((i : ℝ) - j) * Real.pi / N)) ^ 2 := by
    rw [ndist_cast]
    rcases abs_choice ((i : ℝ) - j) with e | e
    · rw [e]; congr 3; ring
    · rw [e, show Real.pi * -((i : ℝ) - j) / N = -(((i : ℝ) - j) * Real.pi / N) by ring, Real.sin_neg]
      ring
  rw [h1]
  have e1 : (i : ℝ) * 2 * Real.pi / N = 2 * (i * Real.pi / N) := by ring
  have e2 : (j : ℝ) * 2 * Real.pi / N = 2 * (j * Real.pi / N) := by ring
  have e3 : ((i : ℝ) - j) * Real.pi / N = i * Real.pi / N - j * Real.pi / N := by ring
  rw [e1, e2, e3, Real.sin_sub]
  generalize (i : ℝ) * Real.pi / N = a
  generalize (j : ℝ) * Real.pi / N = b
  rw [Real.cos_two_mul, Real.cos_two_mul, Real.sin_two_mul, Real.sin_two_mul]
  have ha := Real.sin_sq_add_cos_sq a
  have hb := Real.sin_sq_add_cos_sq b
  have ha' : Real.sin a ^ 2 = 1 - Real.cos a ^ 2 := by linarith
  have hb' : Real.sin b ^ 2 = 1 - Real.cos b ^ 2 := by linarith
  ring_nf
  rw [ha', hb']
  ring

theorem ndist_lt {N i j : ℕ} (hi : i < N) (hj : j < N) : ndist i j < N := by
  unfold ndist
  omega

theorem sin_ndist_nonneg {N : ℕ} {m : ℕ} (hm : m ≤ N) : 0 ≤ Real.sin (Real.pi * m / N) := by
  rcases Nat.eq_zero_or_pos N with rfl | hN
  · simp
  have hN' : (0 : ℝ) < N := by exact_mod_cast hN
  have hm' : (m : ℝ) ≤ N := by exact_mod_cast hm
  have hpi := Real.pi_pos
  refine Real.sin_nonneg_of_nonneg_of_le_pi (by positivity) ?_
  rw [div_le_iff₀ hN']
  exact mul_le_mul_of_nonneg_left hm' hpi.le

/-- the two points of the circle are at distance `2 sin (π |i - j| / N)` -/
theorem chord_eq {N : ℕ} (hN : 0 < N) {i j : ℕ} (hi : i < N) (hj : j < N) :
    √((Real.cos (i * 2 * Real.pi / N) - Real.cos (j * 2 * Real.pi / N)) ^ 2 + (Real.sin (i * 2 * Real.pi / N) - Real.sin (j * 2 * Real.pi / N)) ^ 2) =
      2 * Real.sin (Real.pi * ndist i j / N) := by
  rw [chord_sq hN, Real.sqrt_sq]
  have := sin_ndist_nonneg (ndist_lt hi hj).le
  linarith

theorem circle_inj {N : ℕ} {i j : ℕ} (hi : i < N) (hj : j < N) (hc : Real.cos (i * 2 * Real.pi / N) = Real.cos (j * 2 * Real.pi / N))
    (hs : Real.sin (i * 2 * Real.pi / N) = Real.sin (j * 2 * Real.pi / N)) : i = j := by
  by_contra hne
  have hN : 0 < N := by omega
  have h := chord_eq hN hi hj
  rw [hc, hs, sub_self, sub_self] at h
  have hm : 0 < ndist i j := by unfold ndist; omega
  have hml := ndist_lt hi hj
  have h2 : Real.sin (Real.pi * ndist i j / N) ≤ Real.sin (Real.pi * (0 : ℕ) / N) := by
    simp only [ne_eq, OfNat.ofNat_ne_zero, not_false_eq_true, zero_pow, add_zero, Real.sqrt_zero] at h
    rw [Nat.cast_zero, mul_zero, zero_div, Real.sin_zero]
    linarith
  have := (sin_chord_le hm hml (by omega)).1 h2
  omega

/-! ### Path -/

/-- **C107** `Path` draws its vertices on a line, at different positions; those connected are at distance one, and the arcs of a directed path go
to the right. -/
theorem C107_path {N : ℕ} (hN : 0 < N) (S : Solvers N) (directed : Bool) {lt : LapType} (hlt : lt = .combinatorial ∨ lt = .normalized) :
    ∃ (s : LState N) (g : Graph N ℝ) (x : Fin N → Fin 2 → ℝ), pathDrawn S directed lt = .ok s ∧ path N directed lt = .ok g ∧
      s.g = GState.ofGraph g ∧ s.coords = .array (.of2 x) ∧ Function.Injective x ∧ (∀ i, x i 1 = 0) ∧
      (directed = false → ∀ i j, g.W.dense i j = if |x i 0 - x j 0| = 1 then 1 else 0) ∧
      (directed = true → ∀ i j, g.W.dense i j = if x j 0 - x i 0 = 1 then 1 else 0) := by
  obtain ⟨g, hg, -, -, hW⟩ := C67_weights hN directed hlt
  refine ⟨⟨GState.ofGraph g, .array (.of2 fun i : Fin N => ![(i : ℝ), 0]), none⟩, g, fun i => ![(i : ℝ), 0], ?_, hg, rfl, rfl, fun i j h => ?_, fun i => rfl, fun hd i j => ?_, fun hd i j => ?_⟩
  · unfold pathDrawn
    rw [hg]
    rfl
  · have := congrFun h 0
    simp only [cons_val_zero, Nat.cast_inj] at this
    exact Fin.ext this
  · rw [hW]
    refine if_congr ?_ rfl rfl
    simp only [hd, true_and, cons_val_zero]
    rw [← ndist_cast, Nat.cast_eq_one]
    unfold ndist
    omega
  · rw [hW]
    refine if_congr ?_ rfl rfl
    simp only [hd, Bool.true_eq_false, false_and, or_false, cons_val_zero]
    rw [sub_eq_iff_eq_add]
    constructor
    · intro h; rw [← h]; push_cast; ring
    · intro h
      have : ((j.val : ℕ) : ℝ) = ((1 + i.val : ℕ) : ℝ) := by rw [h]; push_cast; ring
      have := Nat.cast_injective this
      omega

/-! ### Ring -/

open Classical in
/-- **C107** `Ring` draws its vertices on the unit circle, at different positions, and connects each to those which are at a distance of at most
`2 sin (π k / N)`, the distance of its `k`-th neighbours. -/
theorem C107_ring {N k : ℕ} (hN : 3 ≤ N) (hk : 2 * k < N) (S : Solvers N) {lt : LapType} (hlt : lt = .combinatorial ∨ lt = .normalized) :
    ∃ (s : LState N) (g : Graph N ℝ) (x : Fin N → Fin 2 → ℝ), ringDrawn S k lt = .ok s ∧ ring N k lt = .ok g ∧
      s.g = GState.ofGraph g ∧ s.coords = .array (.of2 x) ∧ Function.Injective x ∧ (∀ i, x i 0 ^ 2 + x i 1 ^ 2 = 1) ∧
      (∀ i, x i 0 = Real.cos (2 * Real.pi * i / N) ∧ x i 1 = Real.sin (2 * Real.pi * i / N)) ∧
      ∀ i j, g.W.dense i j = if i ≠ j ∧ √((x i 0 - x j 0) ^ 2 + (x i 1 - x j 1) ^ 2) ≤ 2 * Real.sin (Real.pi * k / N) then 1 else 0 := by
  obtain ⟨g, hg, -, -, hW⟩ := C68_weights hN hk hlt
  refine ⟨⟨GState.ofGraph g, .array (.of2 fun i : Fin N => ![Real.cos (i * 2 * Real.pi / N), Real.sin (i * 2 * Real.pi / N)]), none⟩, g,
    fun i => ![Real.cos (i * 2 * Real.pi / N), Real.sin (i * 2 * Real.pi / N)], ?_, hg, rfl, rfl, fun i j h => ?_, fun i => ?_, fun i => ?_,
    fun i j => ?_⟩
  · unfold ringDrawn
    rw [hg]
    rfl
  · exact Fin.ext (circle_inj i.2 j.2 (congrFun h 0) (congrFun h 1))
  · exact Real.cos_sq_add_sin_sq _
  · have : (i : ℝ) * 2 * Real.pi / N = 2 * Real.pi * i / N := by ring
    simp only [cons_val_zero, cons_val_one, this]
    exact ⟨trivial, trivial⟩
  · rw [hW]
    refine if_congr ?_ rfl rfl
    simp only [cons_val_zero, cons_val_one]
    rw [chord_eq (by omega) i.2 j.2, mul_le_mul_iff_right₀ (by norm_num : (0 : ℝ) < 2)]
    have hi := i.2
    have hj := j.2
    by_cases hij : i = j
    · subst hij
      simp only [ne_eq, not_true_eq_false, false_and, iff_false, not_exists, or_self]
      rintro d ⟨h1, h2, h3⟩
      rw [add_mod_eq hi (by omega)] at h3
      split at h3 <;> omega
    · have hij' : i.1 ≠ j.1 := fun e => hij (Fin.ext e)
      have hm : 0 < ndist i.1 j.1 := by unfold ndist; omega
      rw [sin_chord_le hm (ndist_lt hi hj) hk]
      simp only [ne_eq, hij, not_false_eq_true, true_and]
      unfold ndist
      constructor
      · rintro ⟨d, h1, h2, h3⟩
        rw [add_mod_eq hi (by omega), add_mod_eq hj (by omega)] at h3
        split at h3 <;> split at h3 <;> omega
      · intro h
        rcases lt_or_gt_of_ne hij' with hlt | hlt
        · rcases h with h | h
          · exact ⟨j.1 - i.1, by omega, by omega, .inl (by rw [add_mod_eq hi (by omega), if_pos (by omega)]; omega)⟩
          · exact ⟨N + i.1 - j.1, by omega, by omega, .inr (by rw [add_mod_eq hj (by omega), if_neg (by omega)]; omega)⟩
        · rcases h with h | h
          · exact ⟨i.1 - j.1, by omega, by omega, .inr (by rw [add_mod_eq hj (by omega), if_pos (by omega)]; omega)⟩
          · exact ⟨N + j.1 - i.1, by omega, by omega, .inl (by rw [add_mod_eq hi (by omega), if_neg (by omega)]; omega)⟩

/-! ### Grid2d -/

theorem count_blocks {α : Type} [DecidableEq α] (h : ℕ → α) (N2 : ℕ) (x : α) (a : ℕ) :
    ((List.range (a * N2)).map fun p : ℕ => h (p / N2)).count x = N2 * ((List.range a).map h).count x := by
  rcases Nat.eq_zero_or_pos N2 with rfl | h2
  · simp
  induction a with
  | zero => simp
  | succ a ih =>
    rw [Nat.succ_mul, List.range_add, List.map_append, List.count_append, ih, List.range_succ, List.map_append, List.count_append, Nat.mul_add]
    congr 1
    have : ((List.range N2).map (a * N2 + ·)).map (fun p : ℕ => h (p / N2)) = List.replicate N2 (h a) := by
      rw [List.map_map, List.eq_replicate_iff]
      refine ⟨by simp, fun b hb => ?_⟩
      obtain ⟨r, hr, rfl⟩ := List.mem_map.1 hb
      simp only [Function.comp]
      congr 1
      rw [Nat.add_comm, Nat.add_mul_div_right _ _ h2, Nat.div_eq_of_lt (List.mem_range.1 hr), zero_add]
    rw [this, List.count_replicate]
    by_cases hx : h a = x <;> simp [hx]

theorem count_replicate_flatten {α : Type} [DecidableEq α] (l : List α) (m : ℕ) (x : α) : (List.replicate m l).flatten.count x = m * l.count x := by
  induction m with
  | zero => simp
  | succ m ih => rw [List.replicate_succ, List.flatten_cons, List.count_append, ih, Nat.succ_mul, Nat.add_comm]

theorem gridY_eq (N1 N2 : ℕ) : gridY N1 N2 = (List.range (N1 * N2)).map fun p : ℕ => ((N1 - 1 - p / N2 : ℕ) : ℝ) / N1 := by
  classical
  unfold gridY
  rw [List.reverse_eq_iff]
  refine List.Perm.eq_of_pairwise (le := fun a b : ℝ => a ≤ b) (fun a b _ _ h1 h2 => le_antisymm h1 h2) ?_ ?_ ?_
  · have := List.pairwise_mergeSort (le := fun a b : ℝ => decide (a ≤ b)) (fun a b c h1 h2 => by
      simp only [decide_eq_true_eq] at *
      exact h1.trans h2) (fun a b => by simpa using le_total a b)
      (List.replicate N2 ((List.range N1).map fun i : ℕ => (i : ℝ) / N1)).flatten
    exact this.imp fun h => by simpa using h
  · rw [List.pairwise_reverse, List.pairwise_map]
    refine List.pairwise_lt_range.imp fun {a b} hab => ?_
    have : N1 - 1 - b / N2 ≤ N1 - 1 - a / N2 := Nat.sub_le_sub_left (Nat.div_le_div_right hab.le) _
    gcongr
  · refine (List.mergeSort_perm _ _).trans (List.Perm.trans ?_ (List.reverse_perm _).symm)
    rw [List.perm_iff_count]
    intro x
    rw [count_replicate_flatten, count_blocks (fun q : ℕ => ((N1 - 1 - q : ℕ) : ℝ) / N1)]
    congr 1
    rw [← List.count_reverse]
    congr 1
    refine List.ext_getElem (by simp) fun p h1 h2 => ?_
    simp

theorem flatten_replicate_range {α : Type} (f : ℕ → α) (N1 N2 : ℕ) :
    (List.replicate N1 ((List.range N2).map f)).flatten = (List.range (N1 * N2)).map fun p : ℕ => f (p % N2) := by
  induction N1 with
  | zero => simp
  | succ a ih =>
    rw [List.replicate_succ', List.flatten_append, ih, Nat.succ_mul, List.range_add, List.map_append]
    congr 1
    rw [List.map_map]
    simp only [List.flatten_cons, List.flatten_nil, List.append_nil]
    refine List.map_congr_left fun p hp => ?_
    simp only [Function.comp, Nat.mul_add_mod_self_right]
    rw [Nat.mod_eq_of_lt (List.mem_range.1 hp)]

theorem gridX_eq (N1 N2 : ℕ) : gridX N1 N2 = (List.range (N1 * N2)).map fun p : ℕ => ((p % N2 : ℕ) : ℝ) / N2 := by
  unfold gridX
  rw [flatten_replicate_range (fun j : ℕ => (j : ℝ) / N2)]

/-- **C107** `Grid2d` draws the vertex `p` in column `p % N2` and, from the top, row `p / N2`.  The positions are different, and the weight is one exactly
between neighbours in a row or a column, and `diagonal` between neighbours in diagonal. -/
theorem C107_grid {N1 N2 : ℕ} (h1 : 0 < N1) (h2 : 2 ≤ N2) {diagonal : ℝ} {lt : LapType} (hlt : lt = .combinatorial ∨ lt = .normalized)
    {g : Graph (N1 * N2) ℝ} (h : grid2d N1 N2 diagonal lt = .ok g) :
    ∃ x : Fin (N1 * N2) → ℝ × ℝ, gridPoints N1 N2 = List.ofFn x ∧ Function.Injective x ∧
      (∀ p, x p = (((p.val % N2 : ℕ) : ℝ) / N2, 1 - ((p.val / N2 + 1 : ℕ) : ℝ) / N1)) ∧
      (∀ p, 0 ≤ (x p).1 ∧ (x p).1 < 1 ∧ 0 ≤ (x p).2 ∧ (x p).2 < 1) ∧
      ∀ i j, g.W.dense i j = if N2 * |(x i).1 - (x j).1| + N1 * |(x i).2 - (x j).2| = 1 then 1
        else if N2 * |(x i).1 - (x j).1| = 1 ∧ N1 * |(x i).2 - (x j).2| = 1 then max diagonal 0 else 0 := by
  have hN2 : (0 : ℝ) < N2 := by exact_mod_cast (by omega : 0 < N2)
  have hN1 : (0 : ℝ) < N1 := by exact_mod_cast h1
  have mlt : ∀ i : Fin (N1 * N2), i.1 % N2 < N2 := fun i => Nat.mod_lt _ (by omega)
  have dlt : ∀ i : Fin (N1 * N2), i.1 / N2 < N1 := fun i => (Nat.div_lt_iff_lt_mul (by omega)).2 i.2
  obtain ⟨g', e, -, -, hW⟩ := C70_weights h1 h2 diagonal hlt
  rw [h] at e
  cases e
  let x : Fin (N1 * N2) → ℝ × ℝ := fun p => (((p.val % N2 : ℕ) : ℝ) / N2, 1 - ((p.val / N2 + 1 : ℕ) : ℝ) / N1)
  have d1 : ∀ i j, N2 * |(x i).1 - (x j).1| = ((ndist (i.1 % N2) (j.1 % N2) : ℕ) : ℝ) := fun i j => by
    rw [ndist_cast]
    show N2 * |((i.val % N2 : ℕ) : ℝ) / N2 - ((j.val % N2 : ℕ) : ℝ) / N2| = _
    rw [← sub_div, abs_div, abs_of_pos hN2]
    field_simp
  have d2 : ∀ i j, N1 * |(x i).2 - (x j).2| = ((ndist (i.1 / N2) (j.1 / N2) : ℕ) : ℝ) := fun i j => by
    rw [ndist_cast]
    show N1 * |(1 - ((i.val / N2 + 1 : ℕ) : ℝ) / N1) - (1 - ((j.val / N2 + 1 : ℕ) : ℝ) / N1)| = _
    have : (1 - ((i.val / N2 + 1 : ℕ) : ℝ) / N1) - (1 - ((j.val / N2 + 1 : ℕ) : ℝ) / N1) = (((j.1 / N2 : ℕ) : ℝ) - (i.1 / N2 : ℕ)) / N1 := by
      push_cast
      ring
    rw [this, abs_div, abs_of_pos hN1, abs_sub_comm]
    field_simp
  refine ⟨x, ?_, fun i j hij => ?_, fun p => rfl, fun p => ⟨?_, ?_, ?_, ?_⟩, fun i j => ?_⟩
  · unfold gridPoints
    rw [gridX_eq, gridY_eq, List.zip_map']
    refine List.ext_getElem (by simp) fun p hp1 hp2 => ?_
    have hp : p < N1 * N2 := by simpa using hp1
    have := dlt ⟨p, hp⟩
    dsimp only at this
    simp only [List.getElem_map, List.getElem_range, List.getElem_ofFn]
    refine Prod.ext rfl ?_
    show ((N1 - 1 - p / N2 : ℕ) : ℝ) / N1 = 1 - ((p / N2 + 1 : ℕ) : ℝ) / N1
    rw [show N1 - 1 - p / N2 = N1 - (p / N2 + 1) by omega, Nat.cast_sub (by omega), sub_div, div_self hN1.ne']
  · have a1 := d1 i j
    have a2 := d2 i j
    rw [hij, sub_self, abs_zero, mul_zero, eq_comm, Nat.cast_eq_zero] at a1 a2
    have b1 : i.1 % N2 = j.1 % N2 := by unfold ndist at a1; omega
    have b2 : i.1 / N2 = j.1 / N2 := by unfold ndist at a2; omega
    refine Fin.ext ?_
    rw [← Nat.div_add_mod i.1 N2, ← Nat.div_add_mod j.1 N2, b1, b2]
  · exact div_nonneg (Nat.cast_nonneg _) hN2.le
  · show ((p.val % N2 : ℕ) : ℝ) / N2 < 1
    rw [div_lt_one hN2]
    exact_mod_cast mlt p
  · show 0 ≤ 1 - ((p.val / N2 + 1 : ℕ) : ℝ) / N1
    rw [sub_nonneg, div_le_one hN1]
    exact_mod_cast dlt p
  · show 1 - ((p.val / N2 + 1 : ℕ) : ℝ) / N1 < 1
    have : 0 < ((p.val / N2 + 1 : ℕ) : ℝ) / N1 := div_pos (by positivity) hN1
    linarith
  · rw [hW, d1, d2]
    norm_cast
    rw [Nat.add_comm]
    refine if_congr Iff.rfl rfl (if_congr and_comm rfl rfl)

/-! ### Torus -/

theorem cycle_ne_zero_iff {N a b : ℕ} (hN : 3 ≤ N) (ha : a < N) (hb : b < N) :
    cycle N a b ≠ 0 ↔ Real.sin (Real.pi * ndist a b / N) = Real.sin (Real.pi / N) := by
  have h1 : cycle N a b ≠ 0 ↔ 0 < ndist a b ∧ (ndist a b ≤ 1 ∨ N ≤ ndist a b + 1) := by
    unfold cycle ndist
    rw [add_mod_eq ha (by omega), add_mod_eq hb (by omega)]
    have : ∀ (p q : Prop) [Decidable p] [Decidable q], ((if p then (1 : ℝ) else 0) + (if q then 1 else 0) ≠ 0 ↔ p ∨ q) := by
      intro p q _ _
      split_ifs <;> simp_all
    rw [this]
    split <;> split <;> omega
  rw [h1]
  have hpos : 0 < Real.sin (Real.pi / N) := by
    have : (1 : ℝ) < N := by exact_mod_cast (by omega : 1 < N)
    refine Real.sin_pos_of_pos_of_lt_pi (by positivity) ?_
    rw [div_lt_iff₀ (by linarith)]
    nlinarith [Real.pi_pos]
  constructor
  · rintro ⟨h0, h⟩
    have hc := sin_chord_le h0 (ndist_lt ha hb) (k := 1) (by omega)
    rw [Nat.cast_one, mul_one] at hc
    refine le_antisymm (hc.2 h) ?_
    rcases h with h | h
    · rw [show ndist a b = 1 by omega, Nat.cast_one, mul_one]
    · have hl := ndist_lt ha hb
      rw [show ndist a b = N - 1 by omega, Nat.cast_sub (by omega), Nat.cast_one]
      have hN' : (N : ℝ) ≠ 0 := by exact_mod_cast (by omega : N ≠ 0)
      rw [show Real.pi * ((N : ℝ) - 1) / N = Real.pi - Real.pi / N by field_simp, Real.sin_pi_sub]
  · intro h
    have h0 : 0 < ndist a b := by
      by_contra hc
      rw [show ndist a b = 0 by omega, Nat.cast_zero, mul_zero, zero_div, Real.sin_zero] at h
      linarith
    have hc := sin_chord_le h0 (ndist_lt ha hb) (k := 1) (by omega)
    rw [Nat.cast_one, mul_one] at hc
    exact ⟨h0, hc.1 h.le⟩

/-- The distance to the axis. -/
noncomputable def axial (p : Fin 3 → ℝ) : ℝ := √(p 0 ^ 2 + p 1 ^ 2)

/-- The distance of two points. -/
noncomputable def apart (p q : Fin 3 → ℝ) : ℝ := √(∑ a, (p a - q a) ^ 2)

theorem torusT_pos (t : ℝ) : 0 < 1.5 + Real.sin t := by
  have := Real.neg_one_le_sin t
  norm_num
  linarith

theorem torus_axial (Nv Mv : ℕ) (v : Fin (Mv * Nv)) : axial (torusCoords Nv Mv v) = 1.5 + Real.sin ((v.val / Nv : ℕ) * 2 * Real.pi / Mv) := by
  unfold axial
  have : torusCoords Nv Mv v 0 ^ 2 + torusCoords Nv Mv v 1 ^ 2 = (1.5 + Real.sin ((v.val / Nv : ℕ) * 2 * Real.pi / Mv)) ^ 2 := by
    simp only [torusCoords, flattenF, cons_val_zero, cons_val_one]
    rw [mul_pow, mul_pow, ← add_mul, Real.cos_sq_add_sin_sq, one_mul]
  rw [this, Real.sqrt_sq (torusT_pos _).le]

/-- **C107** `Torus` draws its vertices at different points of the torus of radii 1.5 and 1, and connects exactly the neighbours on the circles of the torus:
on a parallel (same height and same distance to the axis), where they are `2 r sin (π / Nv)` apart, and on a meridian (same direction from the axis), where
they are `2 sin (π / Mv)` apart. -/
theorem C107_torus {Nv Mv : ℕ} (hN : 3 ≤ Nv) (hM : 3 ≤ Mv) {lt : LapType} (hlt : lt = .combinatorial ∨ lt = .normalized)
    {g : Graph (Mv * Nv) ℝ} (h : torus Nv Mv lt = .ok g) :
    Function.Injective (torusCoords Nv Mv) ∧ (∀ v, (axial (torusCoords Nv Mv v) - 1.5) ^ 2 + torusCoords Nv Mv v 2 ^ 2 = 1) ∧
      ∀ i j, g.W.dense i j ≠ 0 ↔
        (axial (torusCoords Nv Mv i) = axial (torusCoords Nv Mv j) ∧ torusCoords Nv Mv i 2 = torusCoords Nv Mv j 2 ∧
          apart (torusCoords Nv Mv i) (torusCoords Nv Mv j) = 2 * axial (torusCoords Nv Mv i) * Real.sin (Real.pi / Nv)) ∨
        (axial (torusCoords Nv Mv j) * torusCoords Nv Mv i 0 = axial (torusCoords Nv Mv i) * torusCoords Nv Mv j 0 ∧
          axial (torusCoords Nv Mv j) * torusCoords Nv Mv i 1 = axial (torusCoords Nv Mv i) * torusCoords Nv Mv j 1 ∧
          apart (torusCoords Nv Mv i) (torusCoords Nv Mv j) = 2 * Real.sin (Real.pi / Mv)) := by
  have mlt : ∀ i : Fin (Mv * Nv), i.1 % Nv < Nv := fun i => Nat.mod_lt _ (by omega)
  have dlt : ∀ i : Fin (Mv * Nv), i.1 / Nv < Mv := fun i => (Nat.div_lt_iff_lt_mul (by omega)).2 i.2
  obtain ⟨g', e, -, -, hW⟩ := C69_weights (by omega : 0 < Nv) (by omega : 0 < Mv) hlt
  rw [h] at e
  cases e
  have c0 : ∀ v, torusCoords Nv Mv v 0 = Real.cos ((v.val % Nv : ℕ) * 2 * Real.pi / Nv) * axial (torusCoords Nv Mv v) := fun v => by
    rw [torus_axial]; rfl
  have c1 : ∀ v, torusCoords Nv Mv v 1 = Real.sin ((v.val % Nv : ℕ) * 2 * Real.pi / Nv) * axial (torusCoords Nv Mv v) := fun v => by
    rw [torus_axial]; rfl
  have c2 : ∀ v, torusCoords Nv Mv v 2 = Real.cos ((v.val / Nv : ℕ) * 2 * Real.pi / Mv) := fun v => rfl
  have hpos : ∀ v, 0 < axial (torusCoords Nv Mv v) := fun v => by rw [torus_axial]; exact torusT_pos _
  have same_par : ∀ i j, axial (torusCoords Nv Mv i) = axial (torusCoords Nv Mv j) → torusCoords Nv Mv i 2 = torusCoords Nv Mv j 2 →
      i.val / Nv = j.val / Nv := fun i j h1 h2 => by
    rw [torus_axial, torus_axial, add_right_inj] at h1
    rw [c2, c2] at h2
    exact circle_inj (dlt i) (dlt j) h2 h1
  have same_mer : ∀ i j, axial (torusCoords Nv Mv j) * torusCoords Nv Mv i 0 = axial (torusCoords Nv Mv i) * torusCoords Nv Mv j 0 →
      axial (torusCoords Nv Mv j) * torusCoords Nv Mv i 1 = axial (torusCoords Nv Mv i) * torusCoords Nv Mv j 1 → i.val % Nv = j.val % Nv := by
    intro i j h1 h2
    rw [c0, c0] at h1
    rw [c1, c1] at h2
    have hp := mul_pos (hpos i) (hpos j)
    refine circle_inj (mlt i) (mlt j) (mul_right_cancel₀ hp.ne' ?_) (mul_right_cancel₀ hp.ne' ?_)
    · linarith
    · linarith
  have dpar : ∀ i j, i.val / Nv = j.val / Nv → apart (torusCoords Nv Mv i) (torusCoords Nv Mv j) =
      2 * axial (torusCoords Nv Mv i) * Real.sin (Real.pi * ndist (i.val % Nv) (j.val % Nv) / Nv) := by
    intro i j hb
    have ha : axial (torusCoords Nv Mv j) = axial (torusCoords Nv Mv i) := by rw [torus_axial, torus_axial, hb]
    unfold apart
    rw [Fin.sum_univ_three, c0, c1, c2, c0 j, c1 j, c2 j, ha, hb, sub_self]
    have := chord_sq (by omega : 0 < Nv) (i.val % Nv) (j.val % Nv)
    have hs := sin_ndist_nonneg (ndist_lt (mlt i) (mlt j)).le
    have h1 := hpos i
    revert this hs h1
    generalize axial (torusCoords Nv Mv i) = r
    generalize Real.sin (Real.pi * ndist (i.val % Nv) (j.val % Nv) / Nv) = s
    intro this hs h1
    rw [show ∀ a b c d : ℝ, (a * r - b * r) ^ 2 + (c * r - d * r) ^ 2 + 0 ^ 2 = r ^ 2 * ((a - b) ^ 2 + (c - d) ^ 2) by intros; ring, this,
      show r ^ 2 * (2 * s) ^ 2 = (2 * r * s) ^ 2 by ring]
    exact Real.sqrt_sq (by positivity)
  have dmer : ∀ i j, i.val % Nv = j.val % Nv → apart (torusCoords Nv Mv i) (torusCoords Nv Mv j) =
      2 * Real.sin (Real.pi * ndist (i.val / Nv) (j.val / Nv) / Mv) := by
    intro i j ha
    unfold apart
    rw [Fin.sum_univ_three, c0, c1, c2, c0 j, c1 j, c2 j, ha, torus_axial, torus_axial, ← chord_eq (by omega) (dlt i) (dlt j)]
    congr 1
    have := Real.cos_sq_add_sin_sq (((j.val % Nv : ℕ) : ℝ) * 2 * Real.pi / Nv)
    revert this
    generalize Real.cos (((j.val % Nv : ℕ) : ℝ) * 2 * Real.pi / Nv) = c
    generalize Real.sin (((j.val % Nv : ℕ) : ℝ) * 2 * Real.pi / Nv) = s
    intro this
    rw [show ∀ a b : ℝ, (c * (1.5 + a) - c * (1.5 + b)) ^ 2 + (s * (1.5 + a) - s * (1.5 + b)) ^ 2 = (c ^ 2 + s ^ 2) * (a - b) ^ 2 by intros; ring, this]
    ring
  have hinj : Function.Injective (torusCoords Nv Mv) := fun i j hij => by
    have b2 := same_par i j (by rw [hij]) (by rw [hij])
    have b1 := same_mer i j (by rw [hij]) (by rw [hij])
    refine Fin.ext ?_
    rw [← Nat.div_add_mod i.1 Nv, ← Nat.div_add_mod j.1 Nv, b1, b2]
  refine ⟨hinj, fun v => ?_, fun i j => ?_⟩
  · rw [torus_axial, c2, add_sub_cancel_left, Real.sin_sq_add_cos_sq]
  · have hcn : ∀ N a b, (0 : ℝ) ≤ cycle N a b := fun N a b => by
      unfold cycle
      split_ifs <;> norm_num
    have hsum : g.W.dense i j ≠ 0 ↔ (i.1 / Nv = j.1 / Nv ∧ cycle Nv (i.1 % Nv) (j.1 % Nv) ≠ 0) ∨
        (i.1 % Nv = j.1 % Nv ∧ cycle Mv (i.1 / Nv) (j.1 / Nv) ≠ 0) := by
      rw [hW]
      have h1 := hcn Nv (i.1 % Nv) (j.1 % Nv)
      have h2 := hcn Mv (i.1 / Nv) (j.1 / Nv)
      split_ifs with p q q
      · simp only [true_and, p, q]
        rw [q] at h1
        rw [p] at h2
        rw [ne_eq, add_eq_zero_iff_of_nonneg h1 h2, not_and_or]
      · simp [p, q]
      · simp [p, q]
      · simp [p, q]
    rw [hsum, cycle_ne_zero_iff hN (mlt i) (mlt j), cycle_ne_zero_iff hM (dlt i) (dlt j)]
    refine or_congr ⟨fun ⟨p, q⟩ => ⟨?_, ?_, ?_⟩, fun ⟨p, q, r⟩ => ?_⟩ ⟨fun ⟨p, q⟩ => ⟨?_, ?_, ?_⟩, fun ⟨p, q, r⟩ => ?_⟩
    · rw [torus_axial, torus_axial, p]
    · rw [c2, c2, p]
    · rw [dpar i j p, q]
    · have hb := same_par i j p q
      refine ⟨hb, ?_⟩
      rw [dpar i j hb] at r
      exact mul_left_cancel₀ (mul_pos two_pos (hpos i)).ne' r
    · rw [c0, c0, p]; ring
    · rw [c1, c1, p]; ring
    · rw [dmer i j p, q]
    · have hb := same_mer i j p q
      refine ⟨hb, ?_⟩
      rw [dmer i j hb] at r
      exact mul_left_cancel₀ two_pos.ne' r

/-- An example: the third vertex of `Ring(5)` is not connected to the first. -/
example (S : Solvers 5) : ∃ s g, ringDrawn S 1 .combinatorial = .ok s ∧ s.g = GState.ofGraph g ∧ g.W.dense 0 2 = 0 := by
  obtain ⟨s, g, x, h1, h2, h3, -⟩ := C107_ring (N := 5) (k := 1) (by norm_num) (by norm_num) S (.inl rfl : LapType.combinatorial = .combinatorial ∨ _)
  obtain ⟨g', e, -, -, hW⟩ := C68_weights (N := 5) (k := 1) (by norm_num) (by norm_num) (.inl rfl : LapType.combinatorial = .combinatorial ∨ _)
  rw [h2] at e
  cases e
  refine ⟨s, g, h1, h3, ?_⟩
  rw [hW, if_neg]
  rintro ⟨d, a, b, c⟩
  obtain rfl : d = 1 := by omega
  revert c
  decide

example : ∃ g, grid2d 2 3 0 .combinatorial = .ok g ∧ gridPoints 2 3 = [(0 / 3, 1 / 2), (1 / 3, 1 / 2), (2 / 3, 1 / 2), (0 / 3, 0), (1 / 3, 0), (2 / 3, 0)] := by
  obtain ⟨g, h, -⟩ := C70_weights (N1 := 2) (N2 := 3) (by norm_num) (by norm_num) 0 (.inl rfl : LapType.combinatorial = .combinatorial ∨ _)
  obtain ⟨x, h1, -, h2, -⟩ := C107_grid (by norm_num) (by norm_num) (.inl rfl) h
  refine ⟨g, h, ?_⟩
  rw [h1]
  refine List.ext_getElem (by simp) fun p hp hq => ?_
  have hp' : p < 6 := by simpa using hp
  rw [List.getElem_ofFn, h2]
  interval_cases p <;> norm_num

end PyGSP.Gen
