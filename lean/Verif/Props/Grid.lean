import Verif.Props.Torus
import Verif.Props.Laplacian

/-!
# C70: Grid2d
-/

namespace PyGSP

open Matrix Spec Gen

namespace Gen

/-- the lower triangular matrix built by `Grid2d`, in terms of the rows `a, b` and the columns `c, d` of the two vertices -/
def gridRaw (diagonal : ℝ) (a b c d : ℕ) : ℝ :=
  (if a = b ∧ c = d + 1 then 1 else 0) + (if a = b + 1 ∧ c = d then 1 else 0) +
    ((if a = b + 1 ∧ c = d + 1 then diagonal else 0) + if a = b + 1 ∧ c + 1 = d then diagonal else 0)

theorem lower_iff {N2 off I J r q : ℕ} (hN : 0 < N2) (hoff : J % N2 + off = r * N2 + q) (hq : q < N2) :
    I = J + off ↔ I / N2 = J / N2 + r ∧ I % N2 = q := by
  have hJ : J / N2 * N2 + J % N2 = J := (div_mod_iff (Nat.mod_lt _ hN)).2 ⟨rfl, rfl⟩
  have h1 : J + off = (J / N2 + r) * N2 + q := by rw [Nat.add_mul]; omega
  rw [h1, eq_comm, div_mod_iff hq]
  constructor
  · rintro ⟨e1, e2⟩; exact ⟨e1.symm, e2.symm⟩
  · rintro ⟨e1, e2⟩; exact ⟨e1.symm, e2.symm⟩

theorem grid_lower {N1 N2 : ℕ} (h2 : 2 ≤ N2) (diagonal : ℝ) (I J : Fin (N1 * N2)) :
    (lowerDiag 1 (N1 * N2) (fun j => if j % N2 = N2 - 1 then 0 else 1) + lowerDiag N2 (N1 * N2) (fun _ => 1) +
      (lowerDiag (N2 + 1) (N1 * N2) (fun j => if j % N2 = N2 - 1 then 0 else diagonal) +
          lowerDiag (N2 - 1) (N1 * N2) fun j => if j % N2 = 0 then 0 else diagonal)) I J =
      gridRaw diagonal (I.1 / N2) (J.1 / N2) (I.1 % N2) (J.1 % N2) := by
  have hN : 0 < N2 := by omega
  have mI : I.1 % N2 < N2 := Nat.mod_lt _ hN
  have mJ : J.1 % N2 < N2 := Nat.mod_lt _ hN
  simp only [Matrix.add_apply, lowerDiag, Matrix.of_apply, gridRaw]
  congr 1
  · congr 1
    · by_cases h : J.1 % N2 = N2 - 1
      · rw [if_pos h, if_neg (by omega : ¬ (I.1 / N2 = J.1 / N2 ∧ I.1 % N2 = J.1 % N2 + 1))]
        split <;> rfl
      · rw [if_neg h]
        refine if_congr ?_ rfl rfl
        exact lower_iff (r := 0) hN (by omega) (by omega)
    · refine if_congr ?_ rfl rfl
      exact lower_iff (r := 1) hN (by omega) mJ
  · congr 1
    · by_cases h : J.1 % N2 = N2 - 1
      · rw [if_pos h, if_neg (by omega : ¬ (I.1 / N2 = J.1 / N2 + 1 ∧ I.1 % N2 = J.1 % N2 + 1))]
        split <;> rfl
      · rw [if_neg h]
        refine if_congr ?_ rfl rfl
        exact lower_iff (r := 1) hN (by omega) (by omega)
    · by_cases h : J.1 % N2 = 0
      · rw [if_pos h, if_neg (by omega : ¬ (I.1 / N2 = J.1 / N2 + 1 ∧ I.1 % N2 + 1 = J.1 % N2))]
        split <;> rfl
      · rw [if_neg h]
        refine if_congr ?_ rfl rfl
        rw [lower_iff (r := 1) (q := J.1 % N2 - 1) hN (by omega) (by omega)]
        omega

/-- the weights of the grid -/
def gridW (diagonal : ℝ) (a b c d : ℕ) : ℝ :=
  if ndist a b + ndist c d = 1 then 1 else if ndist a b = 1 ∧ ndist c d = 1 then max diagonal 0 else 0

theorem max_gridRaw (diagonal : ℝ) (a b c d : ℕ) : max (gridRaw diagonal a b c d) (gridRaw diagonal b a d c) = gridW diagonal a b c d := by
  unfold gridRaw gridW ndist
  rcases lt_trichotomy a b with h | h | h
  · rw [if_neg (by omega : ¬ (a = b ∧ c = d + 1)), if_neg (by omega : ¬ (a = b + 1 ∧ c = d)), if_neg (by omega : ¬ (a = b + 1 ∧ c = d + 1)),
      if_neg (by omega : ¬ (a = b + 1 ∧ c + 1 = d)), if_neg (by omega : ¬ (b = a ∧ d = c + 1))]
    by_cases h1 : b = a + 1
    · by_cases h2 : c = d
      · rw [if_pos (by omega : b = a + 1 ∧ d = c), if_neg (by omega), if_neg (by omega), if_pos (by omega)]; norm_num
      · by_cases h3 : d = c + 1
        · rw [if_neg (by omega : ¬ (b = a + 1 ∧ d = c)), if_pos (by omega), if_neg (by omega), if_neg (by omega), if_pos (by omega)]
          simp [max_comm]
        · by_cases h4 : d + 1 = c
          · rw [if_neg (by omega : ¬ (b = a + 1 ∧ d = c)), if_neg (by omega), if_pos (by omega), if_neg (by omega), if_pos (by omega)]
            simp [max_comm]
          · rw [if_neg (by omega : ¬ (b = a + 1 ∧ d = c)), if_neg (by omega), if_neg (by omega), if_neg (by omega), if_neg (by omega)]
            simp
    · rw [if_neg (by omega : ¬ (b = a + 1 ∧ d = c)), if_neg (by omega), if_neg (by omega), if_neg (by omega), if_neg (by omega)]
      simp
  · subst h
    rw [if_neg (by omega : ¬ (a = a + 1 ∧ c = d)), if_neg (by omega : ¬ (a = a + 1 ∧ c = d + 1)),
      if_neg (by omega : ¬ (a = a + 1 ∧ c + 1 = d)), if_neg (by omega : ¬ (a = a + 1 ∧ d = c)), if_neg (by omega : ¬ (a = a + 1 ∧ d = c + 1)),
      if_neg (by omega : ¬ (a = a + 1 ∧ d + 1 = c)), if_neg (by omega : ¬ (a - a + (a - a) = 1 ∧ c - d + (d - c) = 1))]
    by_cases h3 : c = d + 1
    · rw [if_pos ⟨rfl, h3⟩, if_neg (by omega), if_pos (by omega)]; norm_num
    · by_cases h4 : d = c + 1
      · rw [if_neg (by omega), if_pos ⟨rfl, h4⟩, if_pos (by omega)]; norm_num
      · rw [if_neg (by omega), if_neg (by omega), if_neg (by omega)]; norm_num
  · rw [if_neg (by omega : ¬ (b = a ∧ d = c + 1)), if_neg (by omega : ¬ (b = a + 1 ∧ d = c)), if_neg (by omega : ¬ (b = a + 1 ∧ d = c + 1)),
      if_neg (by omega : ¬ (b = a + 1 ∧ d + 1 = c)), if_neg (by omega : ¬ (a = b ∧ c = d + 1))]
    by_cases h1 : a = b + 1
    · by_cases h2 : c = d
      · rw [if_pos (by omega : a = b + 1 ∧ c = d), if_neg (by omega), if_neg (by omega), if_pos (by omega)]; norm_num
      · by_cases h3 : c = d + 1
        · rw [if_neg (by omega : ¬ (a = b + 1 ∧ c = d)), if_pos (by omega), if_neg (by omega), if_neg (by omega), if_pos (by omega)]
          simp
        · by_cases h4 : c + 1 = d
          · rw [if_neg (by omega : ¬ (a = b + 1 ∧ c = d)), if_neg (by omega), if_pos (by omega), if_neg (by omega), if_pos (by omega)]
            simp
          · rw [if_neg (by omega : ¬ (a = b + 1 ∧ c = d)), if_neg (by omega), if_neg (by omega), if_neg (by omega), if_neg (by omega)]
            simp
    · rw [if_neg (by omega : ¬ (a = b + 1 ∧ c = d)), if_neg (by omega), if_neg (by omega), if_neg (by omega), if_neg (by omega)]
      simp

theorem gridRaw_upper {N2 : ℕ} (diagonal : ℝ) {I J : ℕ} (h : I < J) : gridRaw diagonal (I / N2) (J / N2) (I % N2) (J % N2) = 0 := by
  have h1 : I / N2 ≤ J / N2 := Nat.div_le_div_right h.le
  have h2 : I / N2 = J / N2 → I % N2 < J % N2 := by
    intro e
    have a1 := Nat.div_add_mod I N2
    have a2 := Nat.div_add_mod J N2
    rw [e] at a1
    omega
  unfold gridRaw
  rw [if_neg (by omega), if_neg (by omega), if_neg (by omega), if_neg (by omega)]
  norm_num

end Gen

/-- **The weights of `Grid2d(N1, N2, diagonal)`**, with vertex `r * N2 + c` in row `r` and column `c`: one between horizontal and
vertical neighbours, `diagonal` between diagonal neighbours when it is positive, zero elsewhere. -/
theorem C70_weights {N1 N2 : ℕ} (h1 : 0 < N1) (h2 : 2 ≤ N2) (diagonal : ℝ) {lt : LapType} (hlt : lt = .combinatorial ∨ lt = .normalized) :
    ∃ g, grid2d N1 N2 diagonal lt = .ok g ∧ g.Built ∧ g.lapType = lt ∧ ∀ i j, g.W.dense i j =
      if ndist (i.1 / N2) (j.1 / N2) + ndist (i.1 % N2) (j.1 % N2) = 1 then 1
      else if ndist (i.1 / N2) (j.1 / N2) = 1 ∧ ndist (i.1 % N2) (j.1 % N2) = 1 then max diagonal 0 else 0 := by
  unfold grid2d
  have hpos : 0 < N1 * N2 := Nat.mul_pos h1 (by omega)
  simp only
  rw [if_neg (by omega), if_neg (by omega)]
  -- the lower triangular matrix
  have hW : ∀ I J : Fin (N1 * N2), (open Classical in if 1 < min N1 N2 ∧ diagonal ≠ 0 then
        lowerDiag 1 (N1 * N2) (fun j => if j % N2 = N2 - 1 then 0 else 1) + lowerDiag N2 (N1 * N2) (fun _ => 1) +
        (lowerDiag (N2 + 1) (N1 * N2) (fun j => if j % N2 = N2 - 1 then 0 else diagonal) +
          lowerDiag (N2 - 1) (N1 * N2) fun j => if j % N2 = 0 then 0 else diagonal)
      else lowerDiag 1 (N1 * N2) (fun j => if j % N2 = N2 - 1 then 0 else 1) + lowerDiag N2 (N1 * N2) (fun _ => 1)) I J =
      gridRaw diagonal (I.1 / N2) (J.1 / N2) (I.1 % N2) (J.1 % N2) := by
    intro I J
    by_cases hc : 1 < min N1 N2 ∧ diagonal ≠ 0
    · rw [if_pos hc]
      exact grid_lower h2 diagonal I J
    · rw [if_neg hc]
      have e0 := grid_lower h2 0 I J
      have hz : ∀ o, (lowerDiag o (N1 * N2) fun j => if j % N2 = N2 - 1 then (0 : ℝ) else 0) = 0 := fun o => by
        ext r c; simp [lowerDiag]
      have hz' : ∀ o, (lowerDiag o (N1 * N2) fun j => if j % N2 = 0 then (0 : ℝ) else 0) = 0 := fun o => by
        ext r c; simp [lowerDiag]
      rw [hz, hz', add_zero, add_zero] at e0
      rw [e0]
      unfold gridRaw
      by_cases hd : diagonal = 0
      · rw [hd]
      · have hN1 : N1 = 1 := by
          by_contra hne
          exact hc ⟨by omega, hd⟩
        have dI : I.1 / N2 < N1 := (Nat.div_lt_iff_lt_mul (by omega)).2 I.2
        have dJ : 0 ≤ J.1 / N2 := Nat.zero_le _
        rw [if_neg (by omega : ¬ (I.1 / N2 = J.1 / N2 + 1 ∧ I.1 % N2 = J.1 % N2 + 1)),
          if_neg (by omega : ¬ (I.1 / N2 = J.1 / N2 + 1 ∧ I.1 % N2 + 1 = J.1 % N2)),
          if_neg (by omega : ¬ (I.1 / N2 = J.1 / N2 + 1 ∧ I.1 % N2 = J.1 % N2 + 1)),
          if_neg (by omega : ¬ (I.1 / N2 = J.1 / N2 + 1 ∧ I.1 % N2 + 1 = J.1 % N2))]
  revert hW
  generalize (open Classical in if 1 < min N1 N2 ∧ diagonal ≠ 0 then
        lowerDiag 1 (N1 * N2) (fun j => if j % N2 = N2 - 1 then 0 else 1) + lowerDiag N2 (N1 * N2) (fun _ => 1) +
        (lowerDiag (N2 + 1) (N1 * N2) (fun j => if j % N2 = N2 - 1 then 0 else diagonal) +
          lowerDiag (N2 - 1) (N1 * N2) fun j => if j % N2 = 0 then 0 else diagonal)
      else lowerDiag 1 (N1 * N2) (fun j => if j % N2 = N2 - 1 then 0 else 1) + lowerDiag N2 (N1 * N2) (fun _ => 1)) = W
  intro hW
  have hs : symmetrize true W .tril = .ok (symMaximum true (keepTril W)) := by
    unfold symmetrize
    rw [dif_pos rfl]
  rw [hs]
  obtain ⟨g, g1, g2, g3, g4⟩ := Graph.ofCsr_canonical (Sp.ofDense (symMaximum true (keepTril W))) (Sp.canonical_ofDense _) hlt
  refine ⟨g, g1, g2, g4, fun I J => ?_⟩
  rw [g3, Sp.dense_ofDense, symMaximum_apply]
  have hk : ∀ A B : Fin (N1 * N2), keepTril W A B = gridRaw diagonal (A.1 / N2) (B.1 / N2) (A.1 % N2) (B.1 % N2) := by
    intro A B
    simp only [keepTril, Matrix.of_apply]
    split
    · exact hW A B
    · rename_i h
      rw [gridRaw_upper]
      exact not_le.1 h
  rw [hk, hk, max_gridRaw]
  rfl

namespace Gen

theorem sum_product (M N : ℕ) (F G : ℕ → ℕ → ℝ) :
    ∑ i : Fin (M * N), ∑ j : Fin (M * N), F (i.1 / N) (j.1 / N) * G (i.1 % N) (j.1 % N) =
      (∑ a ∈ Finset.range M, ∑ b ∈ Finset.range M, F a b) * ∑ c ∈ Finset.range N, ∑ d ∈ Finset.range N, G c d := by
  have key : ∀ H : ℕ → ℕ → ℝ, ∑ j ∈ Finset.range (M * N), H (j / N) (j % N) = ∑ b ∈ Finset.range M, ∑ d ∈ Finset.range N, H b d := by
    intro H
    rw [sum_range_mul]
    refine Finset.sum_congr rfl fun b _ => Finset.sum_congr rfl fun a ha => ?_
    obtain ⟨q1, q2⟩ := (div_mod_iff (i := b) (J := b * N + a) (Finset.mem_range.1 ha)).1 rfl
    rw [← q1, ← q2]
  have inner : ∀ i : Fin (M * N), ∑ j : Fin (M * N), F (i.1 / N) (j.1 / N) * G (i.1 % N) (j.1 % N) =
      (∑ b ∈ Finset.range M, F (i.1 / N) b) * ∑ d ∈ Finset.range N, G (i.1 % N) d := by
    intro i
    rw [Fin.sum_univ_eq_sum_range (n := M * N) (fun j => F (i.1 / N) (j / N) * G (i.1 % N) (j % N)),
      key fun b d => F (i.1 / N) b * G (i.1 % N) d, Finset.sum_mul_sum]
  rw [Finset.sum_congr rfl fun i _ => inner i,
    Fin.sum_univ_eq_sum_range (n := M * N) (fun i => (∑ b ∈ Finset.range M, F (i / N) b) * ∑ d ∈ Finset.range N, G (i % N) d),
    key fun a c => (∑ b ∈ Finset.range M, F a b) * ∑ d ∈ Finset.range N, G c d, Finset.sum_mul_sum]

theorem sum_eq_ind (M : ℕ) : ∑ a ∈ Finset.range M, ∑ b ∈ Finset.range M, (if a = b then (1 : ℝ) else 0) = M := by
  rw [Finset.sum_congr rfl fun a ha => by rw [Finset.sum_ite_eq, if_pos ha]]
  simp

theorem sum_succ_ind (M : ℕ) : ∑ a ∈ Finset.range M, ∑ b ∈ Finset.range M, (if b + 1 = a then (1 : ℝ) else 0) = (M - 1 : ℕ) := by
  rw [Finset.sum_comm]
  have : ∀ b ∈ Finset.range M, (∑ a ∈ Finset.range M, if b + 1 = a then (1 : ℝ) else 0) = if b < M - 1 then 1 else 0 := by
    intro b _
    rw [Finset.sum_ite_eq]
    exact if_congr (by rw [Finset.mem_range]; omega) rfl rfl
  rw [Finset.sum_congr rfl this, Finset.sum_ite]
  have e : (Finset.range M).filter (fun x => x < M - 1) = Finset.range (M - 1) := by
    ext x; simp only [Finset.mem_filter, Finset.mem_range]; omega
  simp [e]

theorem sum_pred_ind (M : ℕ) : ∑ a ∈ Finset.range M, ∑ b ∈ Finset.range M, (if a + 1 = b then (1 : ℝ) else 0) = (M - 1 : ℕ) := by
  rw [Finset.sum_comm]
  exact sum_succ_ind M

/-- whether two vertices, the first one in a later position, are adjacent in the grid -/
theorem gridW_ne_zero {diagonal : ℝ} {N2 : ℕ} {I J : ℕ} (h : J < I) :
    ((if gridW diagonal (I / N2) (J / N2) (I % N2) (J % N2) ≠ 0 then (1 : ℝ) else 0)) =
      gridRaw (if 0 < diagonal then 1 else 0) (I / N2) (J / N2) (I % N2) (J % N2) := by
  rw [← max_gridRaw, gridRaw_upper _ h]
  unfold gridRaw
  by_cases c1 : I / N2 = J / N2 ∧ I % N2 = J % N2 + 1
  · rw [if_pos c1, if_neg (by omega : ¬ (I / N2 = J / N2 + 1 ∧ I % N2 = J % N2)),
      if_neg (by omega : ¬ (I / N2 = J / N2 + 1 ∧ I % N2 = J % N2 + 1)), if_neg (by omega : ¬ (I / N2 = J / N2 + 1 ∧ I % N2 + 1 = J % N2)), if_neg (by omega : ¬ (I / N2 = J / N2 + 1 ∧ I % N2 = J % N2 + 1)), if_neg (by omega : ¬ (I / N2 = J / N2 + 1 ∧ I % N2 + 1 = J % N2))]
    norm_num
  · rw [if_neg c1]
    by_cases c2 : I / N2 = J / N2 + 1 ∧ I % N2 = J % N2
    · rw [if_pos c2, if_neg (by omega : ¬ (I / N2 = J / N2 + 1 ∧ I % N2 = J % N2 + 1)), if_neg (by omega : ¬ (I / N2 = J / N2 + 1 ∧ I % N2 + 1 = J % N2)),
        if_neg (by omega : ¬ (I / N2 = J / N2 + 1 ∧ I % N2 = J % N2 + 1)), if_neg (by omega : ¬ (I / N2 = J / N2 + 1 ∧ I % N2 + 1 = J % N2))]
      norm_num
    · rw [if_neg c2]
      have hd : (if max diagonal 0 ≠ 0 then (1 : ℝ) else 0) = if 0 < diagonal then 1 else 0 := by
        refine if_congr ?_ rfl rfl
        rcases le_or_gt diagonal 0 with h | h
        · rw [max_eq_right h]; simp [h]
        · rw [max_eq_left h.le]; simp [h, h.ne']
      by_cases c3 : I / N2 = J / N2 + 1 ∧ I % N2 = J % N2 + 1
      · rw [if_pos c3, if_neg (by omega : ¬ (I / N2 = J / N2 + 1 ∧ I % N2 + 1 = J % N2)), if_pos c3,
          if_neg (by omega : ¬ (I / N2 = J / N2 + 1 ∧ I % N2 + 1 = J % N2))]
        simp only [add_zero, zero_add]
        exact hd
      · by_cases c4 : I / N2 = J / N2 + 1 ∧ I % N2 + 1 = J % N2
        · rw [if_neg c3, if_pos c4, if_neg c3, if_pos c4]
          simp only [add_zero, zero_add]
          exact hd
        · rw [if_neg c3, if_neg c4, if_neg c3, if_neg c4]
          norm_num

end Gen

/-- **`Grid2d` is a grid**: undirected, connected, without self-loops, with `N1 (N2 - 1) + (N1 - 1) N2` edges, and
`2 (N1 - 1) (N2 - 1)` more when `diagonal` is positive. -/
theorem C70_structure {N1 N2 : ℕ} (h1 : 0 < N1) (h2 : 2 ≤ N2) {diagonal : ℝ} {lt : LapType} (hlt : lt = .combinatorial ∨ lt = .normalized)
    {g : Graph (N1 * N2) ℝ} (h : grid2d N1 N2 diagonal lt = .ok g) :
    Undirected g.W.dense ∧ StronglyConnected g.W.dense ∧ (∀ i, g.W.dense i i = 0) ∧
      g.nEdges = N1 * (N2 - 1) + (N1 - 1) * N2 + if 0 < diagonal then 2 * ((N1 - 1) * (N2 - 1)) else 0 := by
  obtain ⟨g', h1', hb, -, hd⟩ := C70_weights h1 h2 diagonal hlt
  rw [h] at h1'
  obtain rfl := Except.ok.inj h1'
  have hN : 0 < N2 := by omega
  have mlt : ∀ i : Fin (N1 * N2), i.1 % N2 < N2 := fun i => Nat.mod_lt _ hN
  have dlt : ∀ i : Fin (N1 * N2), i.1 / N2 < N1 := fun i => (Nat.div_lt_iff_lt_mul hN).2 i.2
  have hsym : ∀ a b, ndist a b = ndist b a := fun a b => add_comm _ _
  have hu : Undirected g.W.dense := fun i j => by
    rw [hd, hd, hsym (i.1 / N2), hsym (i.1 % N2)]
  have hl : ∀ i, g.W.dense i i = 0 := fun i => by
    rw [hd]
    unfold ndist
    rw [if_neg (by omega), if_neg (by omega)]
  have hpos : 0 < N1 * N2 := Nat.mul_pos h1 hN
  refine ⟨hu, ?_, hl, ?_⟩
  · refine connected_from_zero hu hpos fun v => ?_
    have key : ∀ i < N1, ∀ p < N2, i * N2 + p < N1 * N2 := by
      intro i hi p hp
      have : (i + 1) * N2 ≤ N1 * N2 := Nat.mul_le_mul_right _ hi
      rw [Nat.succ_mul] at this
      omega
    have r1 : Reach g.W.dense ⟨0, hpos⟩ ⟨v.1 / N2 * N2, by have := key _ (dlt v) 0 hN; omega⟩ := by
      have := reach_steps (M := g.W.dense) (fun b => if hb : b < N1 then ⟨b * N2, by have := key _ hb 0 hN; omega⟩ else ⟨0, hpos⟩)
        (v.1 / N2) (by
          intro i hi
          have := dlt v
          rw [dif_pos (show i < N1 by omega), dif_pos (show i + 1 < N1 by omega), hd]
          simp only [Nat.mul_mod_left, Nat.mul_div_cancel _ hN]
          unfold ndist
          rw [if_pos (by omega)]
          norm_num)
      rw [dif_pos h1, dif_pos (dlt v)] at this
      simpa using this
    refine r1.trans ?_
    have r2 := reach_steps (M := g.W.dense) (fun a => if ha : a < N2 then ⟨v.1 / N2 * N2 + a, key _ (dlt v) a ha⟩ else ⟨0, hpos⟩)
      (v.1 % N2) (by
        intro i hi
        have := mlt v
        have q : ∀ a, a < N2 → (v.1 / N2 * N2 + a) / N2 = v.1 / N2 ∧ (v.1 / N2 * N2 + a) % N2 = a := fun a ha => by
          have := (div_mod_iff (i := v.1 / N2) (J := v.1 / N2 * N2 + a) ha).1 rfl
          exact ⟨this.1.symm, this.2.symm⟩
        rw [dif_pos (show i < N2 by omega), dif_pos (show i + 1 < N2 by omega), hd]
        simp only [(q i (by omega)).1, (q i (by omega)).2, (q (i + 1) (by omega)).1, (q (i + 1) (by omega)).2]
        unfold ndist
        rw [if_pos (by omega)]
        norm_num)
    rw [dif_pos hN, dif_pos (mlt v)] at r2
    have e0 : (⟨v.1 / N2 * N2 + v.1 % N2, key _ (dlt v) _ (mlt v)⟩ : Fin (N1 * N2)) = v :=
      Fin.ext ((div_mod_iff (mlt v)).2 ⟨rfl, rfl⟩)
    rw [e0] at r2
    exact r2
  · rw [C02_n_edges_undirected g hb hu, edges_card hu hl]
    have hc : ((((arcs g.W.dense).filter fun p => p.1 < p.2).card : ℕ) : ℝ) =
        ∑ i : Fin (N1 * N2), ∑ j : Fin (N1 * N2),
          gridRaw (if 0 < diagonal then 1 else 0) (i.1 / N2) (j.1 / N2) (i.1 % N2) (j.1 % N2) := by
      unfold arcs
      rw [Finset.filter_filter, Finset.card_filter]
      push_cast
      rw [Fintype.sum_prod_type, Finset.sum_comm]
      refine Finset.sum_congr rfl fun i _ => Finset.sum_congr rfl fun j _ => ?_
      rcases lt_or_ge j.1 i.1 with hlt1 | hge
      · rw [← gridW_ne_zero hlt1]
        refine if_congr ?_ rfl rfl
        rw [hu j i, hd]
        exact ⟨fun ⟨q, _⟩ => q, fun q => ⟨q, hlt1⟩⟩
      · rw [if_neg fun q => absurd q.2 (not_lt.2 hge)]
        rcases Nat.eq_or_lt_of_le hge with e | e
        · have : i = j := Fin.ext e
          subst this
          unfold gridRaw
          rw [if_neg (by omega), if_neg (by omega), if_neg (by omega), if_neg (by omega)]; norm_num
        · rw [gridRaw_upper _ e]
    set ε : ℝ := if 0 < diagonal then 1 else 0 with hε
    have hsplit : ∀ i j : Fin (N1 * N2), gridRaw ε (i.1 / N2) (j.1 / N2) (i.1 % N2) (j.1 % N2) =
        (if i.1 / N2 = j.1 / N2 then (1 : ℝ) else 0) * (if j.1 % N2 + 1 = i.1 % N2 then 1 else 0) +
        (if j.1 / N2 + 1 = i.1 / N2 then (1 : ℝ) else 0) * (if i.1 % N2 = j.1 % N2 then 1 else 0) +
        (ε * ((if j.1 / N2 + 1 = i.1 / N2 then (1 : ℝ) else 0) * (if j.1 % N2 + 1 = i.1 % N2 then 1 else 0)) +
        ε * ((if j.1 / N2 + 1 = i.1 / N2 then (1 : ℝ) else 0) * (if i.1 % N2 + 1 = j.1 % N2 then 1 else 0))) := by
      intro i j
      unfold gridRaw
      have e1 : i.1 / N2 = j.1 / N2 + 1 ↔ j.1 / N2 + 1 = i.1 / N2 := eq_comm
      have e2 : i.1 % N2 = j.1 % N2 + 1 ↔ j.1 % N2 + 1 = i.1 % N2 := eq_comm
      simp only [e1, e2, ite_and]
      congr 1
      · congr 1 <;> split <;> simp
      · congr 1 <;> split <;> simp
    rw [Finset.sum_congr rfl fun i _ => Finset.sum_congr rfl fun j _ => hsplit i j] at hc
    simp only [Finset.sum_add_distrib, ← Finset.mul_sum] at hc
    rw [sum_product N1 N2 (fun a b => if a = b then 1 else 0) (fun c d => if d + 1 = c then 1 else 0),
      sum_product N1 N2 (fun a b => if b + 1 = a then 1 else 0) (fun c d => if c = d then 1 else 0),
      sum_product N1 N2 (fun a b => if b + 1 = a then 1 else 0) (fun c d => if d + 1 = c then 1 else 0),
      sum_product N1 N2 (fun a b => if b + 1 = a then 1 else 0) (fun c d => if c + 1 = d then 1 else 0),
      sum_eq_ind, sum_eq_ind, sum_succ_ind, sum_succ_ind, sum_pred_ind] at hc
    rw [hε] at hc
    split
    · rename_i hp
      rw [if_pos hp] at hc
      have : ((((arcs g.W.dense).filter fun p => p.1 < p.2).card : ℕ) : ℝ) =
          ((N1 * (N2 - 1) + (N1 - 1) * N2 + 2 * ((N1 - 1) * (N2 - 1)) : ℕ) : ℝ) := by
        rw [hc]; push_cast; ring
      exact_mod_cast this
    · rename_i hp
      rw [if_neg hp] at hc
      have : ((((arcs g.W.dense).filter fun p => p.1 < p.2).card : ℕ) : ℝ) =
          ((N1 * (N2 - 1) + (N1 - 1) * N2 + 0 : ℕ) : ℝ) := by
        rw [hc]; push_cast; ring
      exact_mod_cast this

/-- Grids without vertices and grids of a single column raise ValueError. -/
theorem C70_errors (N1 N2 : ℕ) (diagonal : ℝ) (lt : LapType) :
    grid2d N1 N2 diagonal lt = .error .valueError ↔ N1 = 0 ∨ N2 ≤ 1 ∨ ∃ name, lt = .other name := by
  constructor
  · intro h
    by_contra hc
    push Not at hc
    obtain ⟨c1, c2, c3⟩ := hc
    have hlt : lt = .combinatorial ∨ lt = .normalized := by
      cases lt with
      | combinatorial => simp
      | normalized => simp
      | other name => exact absurd rfl (c3 name)
    obtain ⟨g, hg, -⟩ := C70_weights (N1 := N1) (N2 := N2) (by omega) (by omega) diagonal hlt
    rw [hg] at h
    cases h
  · intro h
    unfold grid2d
    simp only
    by_cases hz : N1 * N2 = 0
    · rw [if_pos hz]
    · rw [if_neg hz]
      by_cases ho : N2 = 1
      · rw [if_pos ho]
      · rw [if_neg ho]
        have h10 : N1 ≠ 0 := fun e => hz (by rw [e, Nat.zero_mul])
        have h20 : N2 ≠ 0 := fun e => hz (by rw [e, Nat.mul_zero])
        obtain ⟨name, rfl⟩ : ∃ name, lt = .other name := by
          rcases h with h | h | h
          · exact absurd h h10
          · omega
          · exact h
        unfold symmetrize
        rw [dif_pos rfl]
        rfl

/-- A negative `diagonal` is accepted and ignored: the graph is the grid without diagonals. -/
theorem C70_negative_diagonal_violated {N1 N2 : ℕ} (h1 : 0 < N1) (h2 : 2 ≤ N2) {diagonal : ℝ} (hd : diagonal ≤ 0) {lt : LapType}
    (hlt : lt = .combinatorial ∨ lt = .normalized) :
    ∃ g g', grid2d N1 N2 diagonal lt = .ok g ∧ grid2d N1 N2 0 lt = .ok g' ∧ g.W.dense = g'.W.dense := by
  obtain ⟨g, e1, -, -, e2⟩ := C70_weights h1 h2 diagonal hlt
  obtain ⟨g', e3, -, -, e4⟩ := C70_weights h1 h2 0 hlt
  refine ⟨g, g', e1, e3, ?_⟩
  ext i j
  rw [e2, e4, max_eq_right hd, max_self]

example : ∃ g, grid2d 3 4 (1 / 2) .combinatorial = .ok g ∧ g.nEdges = 29 ∧ g.W.dense 0 5 = 1 / 2 := by
  obtain ⟨g, e1, -, -, e2⟩ := C70_weights (N1 := 3) (N2 := 4) (by norm_num) (by norm_num) (1 / 2) (.inl rfl)
  refine ⟨g, e1, ?_, ?_⟩
  · rw [(C70_structure (by norm_num) (by norm_num) (.inl rfl) e1).2.2.2, if_pos (by norm_num)]
  · rw [e2]
    norm_num [ndist]

end PyGSP
