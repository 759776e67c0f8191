import Verif.Model.Distances
import Verif.Lemmas.Potential
import Verif.Lemmas.Single
import Verif.Props.FilterWitness

/-!
# C54 - C56: distances and rescaling
-/

namespace PyGSP

open Matrix Spec GState

/-! ## C54 -/

theorem sum_range_fin {m : ℕ} (f : ℕ → ℝ) : ∑ k ∈ Finset.range m, f k = ∑ k : Fin m, f k := Finset.sum_range f

theorem distanz_eq {x y x' : Arr} {y' : Option Arr} {rx cx ry cy : ℕ} (h1 : asRow x' = .ok x) (h2 : x.shape = [rx, cx])
    (h3 : (match y' with | none => (.ok x : Py Arr) | some y => asRow y) = .ok y) (h4 : y.shape = [ry, cy]) :
    distanz x' y' = if rx ≠ ry then .error .valueError else .ok (Arr.of2 fun (i : Fin cx) (j : Fin cy) =>
      √|(∑ k : Fin rx, x.val [k, i] * x.val [k, i]) + (∑ k : Fin ry, y.val [k, j] * y.val [k, j]) -
        2 * ∑ k : Fin rx, x.val [k, i] * y.val [k, j]|) := by
  unfold distanz
  rw [h1]
  simp only [bind, Except.bind]
  cases y' with
  | none =>
    simp only [Except.ok.injEq] at h3
    subst h3
    simp only [h2] at h4 ⊢
    obtain ⟨rfl, rfl⟩ : rx = ry ∧ cx = cy := by simpa using h4
    simp only [sum_range_fin]
  | some y' =>
    simp only at h3 ⊢
    rw [h3]
    simp only [h2, h4, sum_range_fin]

/-- **distanz**: the entry `(i, j)` is the Euclidean distance between column `i` of `x` and column `j` of `y`; a vector is
a row; `y` defaults to `x`; matrices with different numbers of rows raise ValueError. -/
theorem C54_distanz {r r' c c' : ℕ} (x : Matrix (Fin r) (Fin c) ℝ) (y : Matrix (Fin r) (Fin c') ℝ)
    (z : Matrix (Fin r') (Fin c') ℝ) (u : Fin c → ℝ) (v : Fin c' → ℝ) :
    distanz (Arr.of2 x) (some (Arr.of2 y)) = .ok (Arr.of2 fun i j => √(∑ k, (x k i - y k j) ^ 2)) ∧
    distanz (Arr.of2 x) none = .ok (Arr.of2 fun i j => √(∑ k, (x k i - x k j) ^ 2)) ∧
    distanz (Arr.of1 u) (some (Arr.of1 v)) = .ok (Arr.of2 fun i j => |u i - v j|) ∧
    distanz (Arr.of1 u) none = .ok (Arr.of2 fun i j => |u i - u j|) ∧
    (r ≠ r' → distanz (Arr.of2 x) (some (Arr.of2 z)) = .error .valueError) := by
  have key : ∀ {c' : ℕ} (y : Matrix (Fin r) (Fin c') ℝ),
      distanz (Arr.of2 x) (some (Arr.of2 y)) = .ok (Arr.of2 fun i j => √(∑ k, (x k i - y k j) ^ 2)) := by
    intro c' y
    rw [distanz_eq (x := Arr.of2 x) (y := Arr.of2 y) rfl rfl rfl rfl, if_neg (by simp)]
    refine congrArg Except.ok (congrArg Arr.of2 ?_)
    funext i j
    simp only [Arr.of2, Fin.is_lt, and_self, dif_pos, Fin.eta]
    congr 1
    rw [Finset.mul_sum, ← Finset.sum_add_distrib, ← Finset.sum_sub_distrib]
    rw [abs_of_nonneg (Finset.sum_nonneg fun k _ => by nlinarith [sq_nonneg (x k i - y k j)])]
    exact Finset.sum_congr rfl fun k _ => by ring
  have key1 : ∀ {c' : ℕ} (v : Fin c' → ℝ), distanz (Arr.of1 u) (some (Arr.of1 v)) = .ok (Arr.of2 fun i j => |u i - v j|) := by
    intro c' v
    rw [distanz_eq (x := ⟨[1, c], fun
        | [0, j] => (Arr.of1 u).val [j]
        | _ => 0⟩) (y := ⟨[1, c'], fun
        | [0, j] => (Arr.of1 v).val [j]
        | _ => 0⟩) rfl rfl rfl rfl, if_neg (by simp)]
    refine congrArg Except.ok (congrArg Arr.of2 ?_)
    funext i j
    simp only [Finset.univ_unique, Fin.default_eq_zero, Finset.sum_singleton, Fin.val_zero, Arr.of1, Fin.is_lt, dif_pos, Fin.eta]
    rw [show u i * u i + v j * v j - 2 * (u i * v j) = (u i - v j) ^ 2 by ring, abs_of_nonneg (sq_nonneg _), Real.sqrt_sq_eq_abs]
  refine ⟨key y, ?_, key1 v, ?_, fun h => ?_⟩
  · exact key x
  · exact key1 u
  · rw [distanz_eq (x := Arr.of2 x) (y := Arr.of2 z) rfl rfl rfl rfl, if_pos h]

/-- **distanz is a metric**: non-negative, zero on the diagonal, symmetric, triangle inequality; two columns at distance
zero are equal. -/
theorem C54_metric {r c : ℕ} (x : Matrix (Fin r) (Fin c) ℝ) :
    ∃ d : Fin c → Fin c → ℝ, distanz (Arr.of2 x) none = .ok (Arr.of2 d) ∧
      ∀ i j, 0 ≤ d i j ∧ d i i = 0 ∧ d i j = d j i ∧ (d i j = 0 → ∀ k, x k i = x k j) ∧ ∀ l, d i l ≤ d i j + d j l := by
  refine ⟨_, (C54_distanz x x x 0 0).2.1, fun i j => ⟨Real.sqrt_nonneg _, by simp, ?_, fun h k => ?_, fun l => ?_⟩⟩
  · congr 1; exact Finset.sum_congr rfl fun k _ => by ring
  · have h1 : ∑ k, (x k i - x k j) ^ 2 = 0 := by
      have := (Real.sqrt_eq_zero (Finset.sum_nonneg fun k _ => sq_nonneg _)).1 h
      exact this
    have h2 := (Finset.sum_eq_zero_iff_of_nonneg fun k _ => sq_nonneg (x k i - x k j)).1 h1 k (Finset.mem_univ k)
    have := pow_eq_zero_iff (two_ne_zero) |>.1 h2
    linarith
  · have key : ∀ a b, √(∑ k, (x k a - x k b) ^ 2) = dist (WithLp.toLp 2 fun k => x k a) (WithLp.toLp 2 fun k => x k b) := by
      intro a b
      rw [EuclideanSpace.dist_eq]
      congr 1
      refine Finset.sum_congr rfl fun k _ => ?_
      rw [Real.dist_eq, sq_abs]
    simp only [key]
    exact dist_triangle _ _ _

/-! ## C55 -/

variable {n : ℕ} {pinv : Matrix (Fin n) (Fin n) ℝ → Matrix (Fin n) (Fin n) ℝ}

theorem resistance_apply (L : Matrix (Fin n) (Fin n) ℝ) (i j : Fin n) :
    resistanceOfMatrix pinv L i j = (Pi.single i 1 - Pi.single j 1) ⬝ᵥ
      (invOrPinv pinv L *ᵥ (Pi.single i 1 - Pi.single j 1)) := by
  set P := invOrPinv pinv L with hP
  have : resistanceOfMatrix pinv L i j = P i i + P j j - P i j - P j i := by
    unfold resistanceOfMatrix
    simp only [← hP]
    simp [Matrix.sub_apply, Matrix.add_apply]
  rw [this, Matrix.mulVec_sub, sub_dotProduct, dotProduct_sub, dotProduct_sub]
  simp
  ring

/-- **Symmetry, zero diagonal** of the result for any matrix, and its expression as a quadratic form. -/
theorem C55_symmetric (L : Matrix (Fin n) (Fin n) ℝ) (i j : Fin n) :
    resistanceOfMatrix pinv L i j = resistanceOfMatrix pinv L j i ∧ resistanceOfMatrix pinv L i i = 0 := by
  unfold resistanceOfMatrix
  simp only [Matrix.sub_apply, Matrix.add_apply, Matrix.transpose_apply, Matrix.of_apply]
  constructor <;> ring

/-- **Only combinatorial Laplacians** are accepted. -/
theorem C55_lap_type (s : GState n) :
    (s.lapType ≠ .combinatorial → resistanceDistance pinv s = .error .valueError) ∧
    (s.lapType = .combinatorial → resistanceDistance pinv s = .ok (resistanceOfMatrix pinv s.L)) := by
  constructor
  · intro h; exact if_pos h
  · intro h; exact if_neg (not_not.2 h)

theorem det_combLap (hn : 0 < n) (M : Matrix (Fin n) (Fin n) ℝ) : (combLap M).det = 0 := by
  refine Matrix.exists_mulVec_eq_zero_iff.1 ⟨fun _ => 1, ?_, ?_⟩
  · intro h; have := congrFun h ⟨0, hn⟩; simp at this
  · funext i; rw [combLap_mulVec]; simp

/-- the physical meaning, for a Laplacian matrix -/
theorem resistance_spec {M : Matrix (Fin n) (Fin n) ℝ} (hM : NonnegW M) (hc : Connected M)
    (hp : IsPinv (combLap M) (pinv (combLap M))) (i j : Fin n) :
    IsResistance M i j (resistanceOfMatrix pinv (combLap M) i j) := by
  have hinv : invOrPinv pinv (combLap M) = pinv (combLap M) := if_pos (det_combLap i.pos M)
  have hf : ∑ x, (Pi.single i 1 - Pi.single j 1 : Fin n → ℝ) x = 0 := by simp
  have hsol := combLap_pinv hM hc hp hf
  have hlaw : ∀ v : Fin n → ℝ, (∀ x, ∑ y, wsym M x y * (v x - v y) = (if x = i then 1 else 0) - if x = j then 1 else 0) ↔
      combLap M *ᵥ v = Pi.single i 1 - Pi.single j 1 := by
    intro v
    constructor
    · intro h; funext x; rw [combLap_mulVec, h x]; simp [Pi.single_apply]
    · intro h x; rw [← combLap_mulVec, h]; simp [Pi.single_apply]
  refine ⟨⟨_, (hlaw _).2 hsol⟩, fun v hv => ?_⟩
  have hv' := (hlaw v).1 hv
  have hker : combLap M *ᵥ (v - pinv (combLap M) *ᵥ (Pi.single i 1 - Pi.single j 1)) = 0 := by
    rw [Matrix.mulVec_sub, hv', hsol, sub_self]
  have h1 := combLap_ker hM hc hker i j
  rw [resistance_apply, hinv, sub_dotProduct]
  simp only [Pi.sub_apply] at h1
  simp only [single_dotProduct, one_mul]
  linarith

/-- **Resistance distance**: for a connected graph with non-negative weights, in any state where the Laplacian is
combinatorial, `resistance_distance(G)[i, j]` is the effective resistance between `i` and `j`. -/
theorem C55_effective_resistance {S : Solvers n} (hS : Sound S) {g : Graph n ℝ} (hg : g.Built) (hist : List (Op n))
    {s : GState n} (hs : s = runAll S hist (GState.ofGraph g)) (hl : s.lapType = .combinatorial)
    (hW : NonnegW g.W.dense) (hc : Connected g.W.dense) (hp : ∀ A, Aᵀ = A → IsPinv A (pinv A)) :
    ∃ R, resistanceDistance pinv s = .ok R ∧ ∀ i j, IsResistance g.W.dense i j (R i j) := by
  refine ⟨_, (C55_lap_type s).2 hl, fun i j => ?_⟩
  rw [L_combinatorial hS hg hist hs hl]
  exact resistance_spec hW hc (hp _ (combLap_isSymm _)) i j

/-- **Effective resistance is a metric** (any function satisfying the physical specification is): zero on the diagonal,
symmetric, positive off the diagonal, triangle inequality, and at most the inverse of the conductance of an edge. -/
theorem C55_metric {M : Matrix (Fin n) (Fin n) ℝ} (hM : NonnegW M) (hc : Connected M) (R : Fin n → Fin n → ℝ)
    (hR : ∀ i j, IsResistance M i j (R i j)) (i j k : Fin n) :
    R i i = 0 ∧ R i j = R j i ∧ (i ≠ j → 0 < R i j) ∧ R i j ≤ R i k + R k j ∧
      (wsym M i j ≠ 0 → i ≠ j → R i j ≤ 1 / wsym M i j) := by
  -- a potential
  have hpot : ∀ i j, ∃ v : Fin n → ℝ, combLap M *ᵥ v = Pi.single i 1 - Pi.single j 1 ∧
      (∀ x, v x ≤ v i) ∧ (∀ x, v j ≤ v x) ∧ R i j = v i - v j ∧ (i ≠ j → v j < v i) := by
    intro i j
    obtain ⟨⟨v, hv⟩, hu⟩ := hR i j
    have hL : combLap M *ᵥ v = Pi.single i 1 - Pi.single j 1 := by
      funext x; rw [combLap_mulVec, hv x]; simp [Pi.single_apply]
    have hmax : ∀ x, v x ≤ v i := fun x => by
      obtain ⟨b, rfl, hb⟩ := max_principle hM (· = i) (fun x => ⟨i, rfl, hc x i⟩) v (fun x hx => by
        rw [hL]; simp only [Pi.sub_apply, Pi.single_apply, if_neg hx]; split <;> norm_num) x
      exact hb
    have hmin : ∀ x, v j ≤ v x := fun x => by
      obtain ⟨b, rfl, hb⟩ := min_principle hM (· = j) (fun x => ⟨j, rfl, hc x j⟩) v (fun x hx => by
        rw [hL]; simp only [Pi.sub_apply, Pi.single_apply, if_neg hx]; split <;> norm_num) x
      exact hb
    refine ⟨v, hL, hmax, hmin, (hu v hv).symm, fun hij => lt_of_le_of_ne (hmax j) fun he => ?_⟩
    have hconst : ∀ x, v x = v i := fun x => le_antisymm (hmax x) (by rw [← he]; exact hmin x)
    have h1 := congrFun hL i
    rw [combLap_mulVec] at h1
    simp [hconst, Pi.single_apply, hij] at h1
  have hadd : R i j ≤ R i k + R k j := by
    obtain ⟨⟨v0, hv0⟩, hu⟩ := hR i j
    obtain ⟨v, hv, -, hvmin, hvr, -⟩ := hpot i k
    obtain ⟨w, hw, hwmax, -, hwr, -⟩ := hpot k j
    have h := hu (v + w) (fun x => by
      rw [← combLap_mulVec, Matrix.mulVec_add, hv, hw]
      simp [Pi.single_apply])
    rw [← h, hvr, hwr]
    simp only [Pi.add_apply]
    have h1 := hvmin j
    have h2 := hwmax i
    linarith
  refine ⟨?_, ?_, ?_, hadd, ?_⟩
  · obtain ⟨v, -, -, -, h, -⟩ := hpot i i
    rw [h, sub_self]
  · obtain ⟨v, hv, -, -, h, -⟩ := hpot i j
    obtain ⟨-, hu⟩ := hR j i
    have := hu (-v) (fun x => by
      rw [← combLap_mulVec, Matrix.mulVec_neg, hv]
      simp [Pi.single_apply])
    rw [h, ← this]
    simp only [Pi.neg_apply]
    ring
  · intro hij
    obtain ⟨v, -, -, -, h, hpos⟩ := hpot i j
    rw [h]
    exact sub_pos.2 (hpos hij)
  · intro hw hij
    obtain ⟨v, hv, hmax, -, h, -⟩ := hpot i j
    have hwp : 0 < wsym M i j := lt_of_le_of_ne (wsym_nonneg hM i j) hw.symm
    rw [h, le_div_iff₀ hwp]
    have h1 := congrFun hv i
    rw [combLap_mulVec] at h1
    simp only [Pi.sub_apply, Pi.single_apply, if_pos, if_neg hij, sub_zero] at h1
    have h2 := Finset.single_le_sum (f := fun y => wsym M i y * (v i - v y)) (fun y _ => mul_nonneg (wsym_nonneg hM i y)
      (sub_nonneg.2 (hmax y))) (Finset.mem_univ j)
    linarith [mul_comm (wsym M i j) (v i - v j)]

/-! ## C56 -/

/-- **rescale_center**: when some row is not constant the result is defined; every row of it sums to zero, its maximum is
one, it is a positive multiple of the centred data, and applying the function again changes nothing.  When all rows are
constant the maximum is 0 and the result is NaN; an empty array raises ValueError. -/
theorem C56_rescale_center {r N : ℕ} (x : Matrix (Fin r) (Fin N) ℝ) :
    (r = 0 ∨ N = 0 → rescaleCenter x = .error .valueError) ∧
    (0 < r → 0 < N → (∀ i j j', x i j = x i j') → rescaleCenter x = .error .unmodelled) ∧
    ((∃ i j j', x i j ≠ x i j') → ∃ y, rescaleCenter x = .ok y ∧ (∀ i, ∑ j, y i j = 0) ∧
      (∀ i j, y i j ≤ 1) ∧ (∃ i j, y i j = 1) ∧
      (∃ c, 0 < c ∧ ∀ i j j', c * (y i j - y i j') = x i j - x i j') ∧ rescaleCenter y = .ok y) := by
  -- what is computed
  have hsum : ∀ (hN : 0 < N) (x : Matrix (Fin r) (Fin N) ℝ) i, ∑ j, (x i j - (∑ j, x i j) / N) = 0 := by
    intro hN x i
    rw [Finset.sum_sub_distrib]
    simp only [Finset.sum_const, Finset.card_univ, Fintype.card_fin, nsmul_eq_mul]
    have : (N : ℝ) ≠ 0 := by positivity
    field_simp
    ring
  refine ⟨fun h => ?_, fun hr hN hc => ?_, ?_⟩
  · exact dif_neg (by omega)
  · unfold rescaleCenter
    simp only
    rw [dif_pos ⟨hr, hN⟩, if_pos]
    have hy : ∀ p : Fin r × Fin N, x p.1 p.2 - (∑ j, x p.1 j) / N = 0 := by
      intro p
      rw [Finset.sum_congr rfl fun j _ => hc p.1 j p.2]
      have : (N : ℝ) ≠ 0 := by positivity
      simp [this]
    simp only [Matrix.of_apply, hy]
    exact Finset.sup'_const _ 0
  · rintro ⟨i0, j0, j1, hne⟩
    have hr : 0 < r := i0.pos
    have hN : 0 < N := j0.pos
    set y : Matrix (Fin r) (Fin N) ℝ := Matrix.of fun i j => x i j - (∑ j, x i j) / N with hy
    set c := Finset.univ.sup' ⟨((⟨0, hr⟩ : Fin r), (⟨0, hN⟩ : Fin N)), Finset.mem_univ _⟩ fun p : Fin r × Fin N => y p.1 p.2 with hcd
    have hle : ∀ i j, y i j ≤ c := fun i j => Finset.le_sup' (fun p : Fin r × Fin N => y p.1 p.2) (Finset.mem_univ (i, j))
    obtain ⟨p, -, hp⟩ := Finset.exists_mem_eq_sup' ⟨((⟨0, hr⟩ : Fin r), (⟨0, hN⟩ : Fin N)), Finset.mem_univ _⟩
      fun p : Fin r × Fin N => y p.1 p.2
    have hys : ∀ i, ∑ j, y i j = 0 := fun i => hsum hN x i
    have hcpos : 0 < c := by
      by_contra hcn
      push Not at hcn
      have h0 : ∀ j ∈ Finset.univ, 0 ≤ - y i0 j := fun j _ => by have := hle i0 j; linarith
      have h1 : ∑ j, - y i0 j = 0 := by rw [Finset.sum_neg_distrib, hys i0, neg_zero]
      have h2 := (Finset.sum_eq_zero_iff_of_nonneg h0).1 h1
      have h3 := h2 j0 (Finset.mem_univ _)
      have h4 := h2 j1 (Finset.mem_univ _)
      simp only [hy, Matrix.of_apply] at h3 h4
      exact hne (by linarith)
    have hval : rescaleCenter x = .ok (Matrix.of fun i j => y i j / c) := by
      unfold rescaleCenter
      simp only
      rw [dif_pos ⟨hr, hN⟩, if_neg hcpos.ne']
    have hzs : ∀ i, ∑ j, y i j / c = 0 := fun i => by rw [← Finset.sum_div, hys i, zero_div]
    have hz1 : ∀ i j, y i j / c ≤ 1 := fun i j => (div_le_one hcpos).2 (hle i j)
    have hp1 : y p.1 p.2 / c = 1 := by rw [← hp]; exact div_self hcpos.ne'
    refine ⟨_, hval, hzs, hz1, ⟨p.1, p.2, hp1⟩, ⟨c, hcpos, fun i j j' => ?_⟩, ?_⟩
    · simp only [hy, Matrix.of_apply]
      field_simp
      ring
    · unfold rescaleCenter
      simp only [Matrix.of_apply]
      rw [dif_pos ⟨hr, hN⟩]
      simp only [hzs, zero_div, sub_zero]
      have hmax : Finset.univ.sup' ⟨((⟨0, hr⟩ : Fin r), (⟨0, hN⟩ : Fin N)), Finset.mem_univ _⟩
          (fun q : Fin r × Fin N => y q.1 q.2 / c) = 1 :=
        le_antisymm (Finset.sup'_le _ _ fun q _ => hz1 q.1 q.2)
          (by rw [← hp1]; exact Finset.le_sup' (fun q : Fin r × Fin N => y q.1 q.2 / c) (Finset.mem_univ p))
      rw [hmax, if_neg one_ne_zero]
      simp

/-! ## Concrete cases -/

/-- the pseudo-inverse of a symmetric matrix exists -/
theorem exists_pinv (n : ℕ) : ∃ pinv : Matrix (Fin n) (Fin n) ℝ → Matrix (Fin n) (Fin n) ℝ, ∀ A, Aᵀ = A → IsPinv A (pinv A) := by
  have h : ∀ A : Matrix (Fin n) (Fin n) ℝ, ∃ P, Aᵀ = A → IsPinv A P := by
    intro A
    by_cases hA : Aᵀ = A
    · obtain ⟨S, hS, -⟩ := exists_sound n
      have he := (hS.eigh 0 A (fun i j => by
        have := congrFun (congrFun hA j) i
        simpa using this)).1
      set e := (S.eigh 0 A).1
      set U := (S.eigh 0 A).2
      have hUU : U * Uᵀ = 1 := mul_eq_one_comm.1 he.orthonormal
      have hAe : A = U * diagonal e * Uᵀ := by rw [← he.eig, Matrix.mul_assoc, hUU, Matrix.mul_one]
      have hmul : ∀ a b : Fin n → ℝ, (U * diagonal a * Uᵀ) * (U * diagonal b * Uᵀ) = U * diagonal (fun i => a i * b i) * Uᵀ := by
        intro a b
        rw [← diagonal_mul_diagonal]
        simp only [Matrix.mul_assoc]
        rw [← Matrix.mul_assoc Uᵀ U, he.orthonormal, Matrix.one_mul]
      have hsym : ∀ a : Fin n → ℝ, (U * diagonal a * Uᵀ)ᵀ = U * diagonal a * Uᵀ := by
        intro a
        rw [Matrix.transpose_mul, Matrix.transpose_mul, Matrix.transpose_transpose, diagonal_transpose, Matrix.mul_assoc]
      refine ⟨U * diagonal (fun i => (e i)⁻¹) * Uᵀ, fun _ => ?_⟩
      rw [hAe]
      refine ⟨?_, ?_, ?_, ?_⟩
      · rw [hmul, hmul]; congr 3; funext i; exact mul_inv_mul_cancel _
      · rw [hmul, hmul]; congr 3; funext i; by_cases h : e i = 0 <;> simp [h]
      · rw [hmul, hsym]
      · rw [hmul, hsym]
    · exact ⟨0, fun h => absurd h hA⟩
  choose f hf using h
  exact ⟨f, hf⟩

theorem path4_connected : Connected path4 := by
  have h01 : Linked path4 0 1 := .single (.inl (by simp [path4]))
  have h12 : Linked path4 1 2 := .single (.inl (by simp [path4]))
  have h23 : Linked path4 2 3 := .single (.inl (by simp [path4]))
  have h : ∀ i, Linked path4 0 i := by
    intro i
    fin_cases i
    · exact .refl
    · exact h01
    · exact h01.trans h12
    · exact (h01.trans h12).trans h23
  exact fun i j => (Linked.symm (h i)).trans (h j)

/-- All the hypotheses of C55 hold on the path with 4 vertices. -/
example : ∃ (g : Graph 4 ℝ) (S : Solvers 4) (s : GState 4) (pinv : Matrix (Fin 4) (Fin 4) ℝ → Matrix (Fin 4) (Fin 4) ℝ)
    (R : Matrix (Fin 4) (Fin 4) ℝ), g.Built ∧ g.W.dense = path4 ∧ Sound S ∧
    s = runAll S [.computeFourierBasis none] (GState.ofGraph g) ∧ resistanceDistance pinv s = .ok R ∧ 0 < R 0 3 ∧ R 0 1 ≤ 1 := by
  obtain ⟨g, hg, hd, S, hS, s, hs, -, -, -, ⟨-, hlt, -⟩, -⟩ :=
    exists_setup path4 path4_nonneg (i := 0) (j := 1) (by decide) (by simp [path4])
  obtain ⟨pinv, hp⟩ := exists_pinv 4
  obtain ⟨R, h1, h2⟩ := C55_effective_resistance hS hg _ hs hlt (by rw [hd]; exact path4_nonneg)
    (by rw [hd]; exact path4_connected) hp
  rw [hd] at h2
  refine ⟨g, S, s, pinv, R, hg, hd, hS, hs, h1, (C55_metric path4_nonneg path4_connected R h2 0 3 0).2.2.1 (by decide), ?_⟩
  have hw : wsym path4 0 1 = 1 := by simp [wsym, path4]
  have := (C55_metric path4_nonneg path4_connected R h2 0 1 0).2.2.2.2 (by rw [hw]; norm_num) (by decide)
  rwa [hw, div_one] at this

/-- C56 on the documented example. -/
example : ∃ y, rescaleCenter !![(1 : ℝ), 6; 2, 5; 3, 4] = .ok y ∧ (∀ i, ∑ j, y i j = 0) ∧ ∃ i j, y i j = 1 := by
  obtain ⟨y, h1, h2, -, h3, -⟩ := (C56_rescale_center !![(1 : ℝ), 6; 2, 5; 3, 4]).2.2 ⟨0, 0, 1, by simp⟩
  exact ⟨y, h1, h2, h3⟩

end PyGSP
