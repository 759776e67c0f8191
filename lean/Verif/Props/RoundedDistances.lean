import Verif.Model.RoundedDistances
import Verif.Props.RoundedEnergy
import Verif.Props.Utils

/-!
# C150: rounding errors of `utils.distanz`
-/

namespace PyGSP

open Matrix Spec Rounding

namespace RoundedDistances

theorem square_near {u : ℝ} {fl : ℝ → ℝ} (hr : Rounds fl u) {r : ℕ} {x y : Fin r → ℝ} {a b c : ℝ} (ha : DotAny fl x x Finset.univ a) (hb : DotAny fl y y Finset.univ b)
    (hc : DotAny fl x y Finset.univ c) :
    Near u (r + 3) (fl (fl (a + b) - fl (2 * c))) (∑ k, (x k - y k) ^ 2) (2 * (∑ k, x k ^ 2 + ∑ k, y k ^ 2)) := by
  have h1 := (dotAny_near hr ha).2
  have h2 := (dotAny_near hr hb).2
  have h3 := (dotAny_near hr hc).2
  rw [Finset.card_univ, Fintype.card_fin] at h1 h2 h3
  have h4 := (h1.add h2).round hr
  have h5 := ((Near.refl (u := u) 2).mul hr.nonneg h3).round hr
  have h6 := (h4.sub (h5.mono hr.nonneg (show 0 + (r + 1) + 1 ≤ r + 1 + 1 by omega) le_rfl)).round hr
  have e : ∑ k, x k * x k + ∑ k, y k * y k - 2 * ∑ k, x k * y k = ∑ k, (x k - y k) ^ 2 := by
    rw [Finset.mul_sum, ← Finset.sum_add_distrib, ← Finset.sum_sub_distrib]
    exact Finset.sum_congr rfl fun k _ => by ring
  have e2 : ∑ k, |x k| * |x k| + ∑ k, |y k| * |y k| + |(2 : ℝ)| * ∑ k, |x k| * |y k| ≤ 2 * (∑ k, x k ^ 2 + ∑ k, y k ^ 2) := by
    rw [abs_two, Finset.mul_sum, ← Finset.sum_add_distrib, ← Finset.sum_add_distrib, ← Finset.sum_add_distrib, Finset.mul_sum]
    refine Finset.sum_le_sum fun k _ => ?_
    have := sq_nonneg (|x k| - |y k|)
    rw [← sq_abs (x k), ← sq_abs (y k)]
    nlinarith
  rw [e] at h6
  exact h6.mono hr.nonneg le_rfl e2

theorem dist_near {u : ℝ} {fl : ℝ → ℝ} (hr : Rounds fl u) {q T S : ℝ} {k : ℕ} (hT : 0 ≤ T) (h : Near u k q T S) : Near u (k + 2) (fl (√|q|) ^ 2) T S := by
  have h1 : Near u k |q| T S := ⟨(by
    have := abs_abs_sub_abs_le q T
    rw [abs_of_nonneg hT] at this
    exact this.trans h.1), h.2⟩
  have h2 : Near u 1 (fl (√|q|)) (√|q|) (√|q|) := by
    have := (Near.refl (u := u) (√|q|)).round hr
    rwa [abs_of_nonneg (Real.sqrt_nonneg _)] at this
  rcases eq_or_ne q 0 with rfl | hq
  · rw [abs_zero, Real.sqrt_zero, fl_zero hr, zero_pow two_ne_zero]
    rw [abs_zero] at h1
    exact h1.mono hr.nonneg (by omega) le_rfl
  have hs : 0 < √|q| := Real.sqrt_pos.2 (abs_pos.2 hq)
  have h3 := h2.div hs
  rw [div_self hs.ne'] at h3
  have h4 := h1.mul hr.nonneg (h3.mul hr.nonneg h3)
  have e : |q| * (fl (√|q|) / √|q| * (fl (√|q|) / √|q|)) = fl (√|q|) ^ 2 := by
    have := Real.sq_sqrt (abs_nonneg q)
    field_simp
    rw [this, mul_comm]
  rw [e] at h4
  simpa using h4

theorem fl_nonneg {u : ℝ} {fl : ℝ → ℝ} (hr : Rounds fl u) (hu : u ≤ 1) {x : ℝ} (hx : 0 ≤ x) : 0 ≤ fl x := by
  have h1 := (abs_le.1 (hr.err x)).1
  rw [abs_of_nonneg hx] at h1
  nlinarith

end RoundedDistances

open RoundedDistances

section

variable {u : ℝ} {fl : ℝ → ℝ} {r c c' : ℕ} {x : Matrix (Fin r) (Fin c) ℝ} {y : Matrix (Fin r) (Fin c') ℝ} {D : Fin c → Fin c' → ℝ}

/-- C150: the square of a computed distance is the square of the distance up to the relative error of `r + 5` operations on *twice the squares of the norms* of the two points.  The distance
itself has the square root of this error, or less when the points are distinct. -/
theorem C150_error (hr : Rounds fl u) (hu : u ≤ 1) (h : DistanzFl fl x y D) (i : Fin c) (j : Fin c') :
    let d := √(∑ k, (x k i - y k j) ^ 2)
    let ε := ((1 + u) ^ (r + 5) - 1) * (2 * (∑ k, x k i ^ 2 + ∑ k, y k j ^ 2))
    0 ≤ D i j ∧ |D i j ^ 2 - d ^ 2| ≤ ε ∧ |D i j - d| ≤ √ε ∧ (0 < d → |D i j - d| ≤ ε / d) := by
  intro d ε
  obtain ⟨xx, yy, xy, hx, hy, hxy, hD⟩ := h
  have hT : 0 ≤ ∑ k, (x k i - y k j) ^ 2 := Finset.sum_nonneg fun k _ => sq_nonneg _
  have h1 := (dist_near hr hT (square_near hr (hx i) (hy j) (hxy i j))).1
  rw [← hD] at h1
  have h0 : 0 ≤ D i j := by rw [hD]; exact fl_nonneg hr hu (Real.sqrt_nonneg _)
  have hd : d ^ 2 = ∑ k, (x k i - y k j) ^ 2 := Real.sq_sqrt hT
  have hd0 : 0 ≤ d := Real.sqrt_nonneg _
  have h2 : |D i j ^ 2 - d ^ 2| ≤ ε := by rw [hd]; exact h1
  have e : |D i j ^ 2 - d ^ 2| = |D i j - d| * (D i j + d) := by
    rw [show D i j ^ 2 - d ^ 2 = (D i j - d) * (D i j + d) by ring, abs_mul, abs_of_nonneg (add_nonneg h0 hd0)]
  have h3 : |D i j - d| ≤ D i j + d := by rw [abs_le]; constructor <;> linarith
  have h4 := abs_nonneg (D i j - d)
  refine ⟨h0, h2, Real.le_sqrt_of_sq_le ?_, fun hp => ?_⟩
  · nlinarith
  · rw [le_div_iff₀ hp]
    nlinarith

/-- C150: hence a Gaussian weight computed from it (`SwissRoll`, `DavidSensorNet`) is accurate. -/
theorem C150_weight (hr : Rounds fl u) (hu : u ≤ 1) (h : DistanzFl fl x y D) (i : Fin c) (j : Fin c') {s : ℝ} (hs : 0 < s) :
    |Real.exp (-D i j ^ 2 / (2 * s ^ 2)) - Real.exp (-(∑ k, (x k i - y k j) ^ 2) / (2 * s ^ 2))| ≤
      ((1 + u) ^ (r + 5) - 1) * (∑ k, x k i ^ 2 + ∑ k, y k j ^ 2) / s ^ 2 := by
  obtain ⟨h0, h1, -, -⟩ := C150_error hr hu h i j
  have hT : 0 ≤ ∑ k, (x k i - y k j) ^ 2 := Finset.sum_nonneg fun k _ => sq_nonneg _
  rw [Real.sq_sqrt hT] at h1
  have hs2 : 0 < 2 * s ^ 2 := by positivity
  have key : ∀ a b : ℝ, 0 ≤ a → a ≤ b → |Real.exp (-a) - Real.exp (-b)| ≤ b - a := fun a b ha hab => by
    have e1 : Real.exp (-b) = Real.exp (-a) * Real.exp (-(b - a)) := by rw [← Real.exp_add]; congr 1; ring
    have e2 : Real.exp (-a) ≤ 1 := Real.exp_le_one_iff.2 (by linarith)
    have e3 : Real.exp (-(b - a)) ≤ 1 := Real.exp_le_one_iff.2 (by linarith)
    have e4 := Real.add_one_le_exp (-(b - a))
    have e5 := Real.exp_pos (-a)
    rw [e1, abs_of_nonneg (by nlinarith)]
    nlinarith
  have h2 : |Real.exp (-(D i j ^ 2 / (2 * s ^ 2))) - Real.exp (-((∑ k, (x k i - y k j) ^ 2) / (2 * s ^ 2)))| ≤ |D i j ^ 2 / (2 * s ^ 2) - (∑ k, (x k i - y k j) ^ 2) / (2 * s ^ 2)| := by
    have p1 : 0 ≤ D i j ^ 2 / (2 * s ^ 2) := by positivity
    have p2 : 0 ≤ (∑ k, (x k i - y k j) ^ 2) / (2 * s ^ 2) := by positivity
    rcases le_total (D i j ^ 2 / (2 * s ^ 2)) ((∑ k, (x k i - y k j) ^ 2) / (2 * s ^ 2)) with hle | hle
    · rw [abs_sub_comm (D i j ^ 2 / _), abs_of_nonneg (sub_nonneg.2 hle)]; exact key _ _ p1 hle
    · rw [abs_sub_comm, abs_of_nonneg (sub_nonneg.2 hle)]; exact key _ _ p2 hle
  rw [neg_div, neg_div]
  refine h2.trans ?_
  rw [← sub_div, abs_div, abs_of_pos hs2, div_le_div_iff₀ hs2 (by positivity)]
  nlinarith [mul_le_mul_of_nonneg_right h1 (sq_nonneg s)]

/-- C150: without rounding the result is that of `distanz`; and a result always exists when there is a row. -/
theorem C150_exact (x : Matrix (Fin r) (Fin c) ℝ) (y : Matrix (Fin r) (Fin c') ℝ) :
    (∀ D, DistanzFl (fun t => t) x y D → distanz (Arr.of2 x) (some (Arr.of2 y)) = .ok (Arr.of2 D)) ∧ (0 < r → ∀ fl, ∃ D, DistanzFl fl x y D) := by
  constructor
  · intro D hD
    rw [(C54_distanz x y (r' := 0) 0 (fun _ => 0) fun _ => 0).1]
    congr 2
    funext i j
    obtain ⟨-, -, h, -⟩ := C150_error exact_rounds (by norm_num) hD i j
    simp only [add_zero, one_pow, sub_self, zero_mul, Real.sqrt_zero] at h
    exact (sub_eq_zero.1 (abs_nonpos_iff.1 h)).symm
  · intro hr fl
    have hne : (Finset.univ : Finset (Fin r)).Nonempty := ⟨⟨0, hr⟩, Finset.mem_univ _⟩
    choose xx hx using fun i : Fin c => dotAny_exists fl (fun k => x k i) (fun k => x k i) Finset.univ hne
    choose yy hy using fun j : Fin c' => dotAny_exists fl (fun k => y k j) (fun k => y k j) Finset.univ hne
    choose xy hxy using fun (i : Fin c) (j : Fin c') => dotAny_exists fl (fun k => x k i) (fun k => y k j) Finset.univ hne
    exact ⟨_, xx, yy, xy, hx, hy, hxy, fun _ _ => rfl⟩

/-- C150: between points with integer coordinates that are not too large, the only error is the rounding of the square root; in particular equal points have distance zero, and two points
have the same distance in both orders. -/
theorem C150_integers {B : ℤ} (hfl : ∀ z : ℤ, |z| ≤ B → fl z = z) {X : Fin r → Fin c → ℤ} {Y : Fin r → Fin c' → ℤ} (hx : ∀ k i, x k i = X k i) (hy : ∀ k j, y k j = Y k j)
    (h : DistanzFl fl x y D) (i : Fin c) (j : Fin c') (hB : 2 * (∑ k, X k i ^ 2 + ∑ k, Y k j ^ 2) ≤ B) : D i j = fl (√(∑ k, (x k i - y k j) ^ 2)) := by
  obtain ⟨xx, yy, xy, hxx, hyy, hxy, hD⟩ := h
  have pX : 0 ≤ ∑ k, X k i ^ 2 := Finset.sum_nonneg fun k _ => sq_nonneg _
  have pY : 0 ≤ ∑ k, Y k j ^ 2 := Finset.sum_nonneg fun k _ => sq_nonneg _
  have am : ∑ k, |X k i * Y k j| * 2 ≤ ∑ k, X k i ^ 2 + ∑ k, Y k j ^ 2 := by
    rw [← Finset.sum_add_distrib]
    refine Finset.sum_le_sum fun k _ => ?_
    rw [abs_mul, ← sq_abs (X k i), ← sq_abs (Y k j)]
    nlinarith [sq_nonneg (|X k i| - |Y k j|)]
  rw [← Finset.sum_mul] at am
  have aX : ∑ k, |X k i * X k i| = ∑ k, X k i ^ 2 := Finset.sum_congr rfl fun k _ => by rw [abs_of_nonneg (mul_self_nonneg _), sq]
  have aY : ∑ k, |Y k j * Y k j| = ∑ k, Y k j ^ 2 := Finset.sum_congr rfl fun k _ => by rw [abs_of_nonneg (mul_self_nonneg _), sq]
  have h1 := RoundedEnergy.any_int hfl (fun k => hx k i) (fun k => hx k i) (by rw [aX]; linarith) (hxx i)
  have h2 := RoundedEnergy.any_int hfl (fun k => hy k j) (fun k => hy k j) (by rw [aY]; linarith) (hyy j)
  have h3 := RoundedEnergy.any_int hfl (fun k => hx k i) (fun k => hy k j) (by linarith) (hxy i j)
  have s1 : ∑ k, X k i * X k i = ∑ k, X k i ^ 2 := Finset.sum_congr rfl fun k _ => by rw [sq]
  have s2 : ∑ k, Y k j * Y k j = ∑ k, Y k j ^ 2 := Finset.sum_congr rfl fun k _ => by rw [sq]
  have s3 : |∑ k, X k i * Y k j| * 2 ≤ ∑ k, X k i ^ 2 + ∑ k, Y k j ^ 2 := by
    have := Finset.abs_sum_le_sum_abs (fun k => X k i * Y k j) Finset.univ
    linarith
  obtain ⟨s4, s5⟩ := abs_le.1 (show |∑ k, X k i * Y k j| ≤ |∑ k, X k i * Y k j| from le_rfl)
  rw [s1] at h1
  rw [s2] at h2
  rw [hD, h1, h2, h3, ← Int.cast_add, hfl _ (by rw [abs_of_nonneg (add_nonneg pX pY)]; linarith), ← Int.cast_ofNat (n := 2), ← Int.cast_mul,
    hfl _ (by rw [abs_mul]; norm_num; linarith), ← Int.cast_sub, hfl _ (by rw [abs_le]; constructor <;> push_cast <;> linarith)]
  congr 2
  have e : ∑ k, X k i ^ 2 + ∑ k, Y k j ^ 2 - (OfNat.ofNat 2) * ∑ k, X k i * Y k j = ∑ k, (X k i - Y k j) ^ 2 := by
    rw [Finset.mul_sum, ← Finset.sum_add_distrib, ← Finset.sum_sub_distrib]
    exact Finset.sum_congr rfl fun k _ => by ring
  have e2 : ((∑ k, (X k i - Y k j) ^ 2 : ℤ) : ℝ) = ∑ k, (x k i - y k j) ^ 2 := by
    push_cast
    exact Finset.sum_congr rfl fun k _ => by rw [hx, hy]
  refine Eq.trans ?_ e2
  rw [← e, abs_of_nonneg]
  rw [e, Int.cast_nonneg_iff]
  exact Finset.sum_nonneg fun k _ => sq_nonneg (X k i - Y k j)

end

/-- The hypotheses are met in double precision by the points of a grid with coordinates up to 10000 in dimension 3. -/
example (X : Fin 3 → Fin 7 → ℤ) (hX : ∀ k i, |X k i| ≤ 10000) :
    ∃ D, DistanzFl (nearest 53) (fun k i => (X k i : ℝ)) (fun k i => (X k i : ℝ)) D ∧ ∀ i j, D i j = nearest 53 (√(∑ k, ((X k i : ℝ) - X k j) ^ 2)) := by
  obtain ⟨D, hD⟩ := (C150_exact (r := 3) (fun k i => (X k i : ℝ)) (fun k i => (X k i : ℝ))).2 (by norm_num) (nearest 53)
  refine ⟨D, hD, fun i j => C150_integers (B := 2 ^ 53 - 1) (fun z hz => (C142_nearest 53).2 z (by linarith)) (fun _ _ => rfl) (fun _ _ => rfl) hD i j ?_⟩
  have h1 : ∀ i, ∑ k, X k i ^ 2 ≤ 300000000 := fun i => by
    have : ∀ k, X k i ^ 2 ≤ 100000000 := fun k => by
      rw [← sq_abs]
      nlinarith [hX k i, abs_nonneg (X k i)]
    rw [Fin.sum_univ_three]
    linarith [this 0, this 1, this 2]
  linarith [h1 i, h1 j]

namespace RoundedDistances

/-- the values of a dot product with one term -/
theorem any_one {fl : ℝ → ℝ} {a y : Fin 1 → ℝ} {s : Finset (Fin 1)} {r : ℝ} (h : DotAny fl a y s r) : r = fl (a 0 * y 0) ∨ r = fl (0 + fl (a 0 * y 0)) := by
  have hs : ∀ {s : Finset (Fin 1)} {r : ℝ}, DotAny fl a y s r → s.Nonempty := fun h => by
    induction h with
    | product i => exact ⟨i, by simp⟩
    | register i => exact ⟨i, by simp⟩
    | fma i _ _ _ => exact ⟨i, by simp⟩
    | add _ _ _ ih _ => exact ih.mono Finset.subset_union_left
  cases h with
  | product i => exact .inl (by rw [Subsingleton.elim i 0])
  | register i => exact .inr (by rw [Subsingleton.elim i 0])
  | fma i hi h' =>
    obtain ⟨j, hj⟩ := hs h'
    exact absurd (Subsingleton.elim i j ▸ hj) hi
  | add hd h' h'' =>
    obtain ⟨j, hj⟩ := hs h'
    obtain ⟨k, hk⟩ := hs h''
    exact absurd (Subsingleton.elim j k ▸ hk) (Finset.disjoint_left.1 hd hj)

end RoundedDistances

open Classical in
/-- C150: the computed distance does not separate points: with `p` binary digits, the distance from 1 to `1 + k 2^(1-p)` is computed as zero for every `k` below `2^(p/2 - 1)`, however the
products are added.  In double precision, all the points within `7e-9` of 1 are at distance zero of it. -/
theorem C150_separated_violated {p k : ℕ} (hp : 2 ≤ p) (hk : k ^ 2 < 2 ^ (p - 2)) {D : Fin 1 → Fin 1 → ℝ}
    (h : DistanzFl (nearest p) (Matrix.of fun _ _ : Fin 1 => (1 : ℝ)) (Matrix.of fun _ _ : Fin 1 => 1 + k * (2 : ℝ) ^ (1 - (p : ℤ))) D) : D 0 0 = 0 := by
  obtain ⟨xx, yy, xy, hx, hy, hxy, hD⟩ := h
  have hr := (C142_nearest p).1
  set w : ℝ := (2 : ℝ) ^ (1 - (p : ℤ)) with hw
  have hwp : 0 < w := by positivity
  have hkN : k < 2 ^ (p - 2) := by nlinarith [Nat.two_pow_pos (p - 2)]
  have hkR : (k : ℝ) < 2 ^ (p - 2) := by exact_mod_cast hkN
  have hk2 : (k : ℝ) ^ 2 < 2 ^ (p - 2) := by exact_mod_cast hk
  have e2 : (2 : ℝ) ^ (p - 2) * 2 = 2 ^ (p - 1) := by rw [← pow_succ]; congr 1; omega
  have e1 : (2 : ℝ) ^ (p - 1) * 2 = 2 ^ p := by rw [← pow_succ]; congr 1; omega
  have ew : (2 : ℝ) ^ (p - 1) * w = 1 := by
    rw [hw, ← zpow_natCast, ← zpow_add₀ (by norm_num)]
    simp [Nat.cast_sub (show 1 ≤ p by omega)]
  have z1 : (2 : ℝ) ^ ((p : ℤ) - 1) = 2 ^ (p - 1) := by rw [← zpow_natCast, Nat.cast_sub (show 1 ≤ p by omega)]; simp
  have z2 : (2 : ℝ) ^ (p : ℤ) = 2 ^ p := zpow_natCast _ _
  have hkw : (k : ℝ) * w < 1 / 2 := by nlinarith
  have num : ∀ m : ℕ, m < 2 ^ (p - 1) → ∀ c : ℤ, nearest p ((1 + m * w) * 2 ^ c) = (1 + m * w) * 2 ^ c := fun m hm c => by
    have hm' : (m : ℝ) < 2 ^ (p - 1) := by exact_mod_cast hm
    have e : (1 + (m : ℝ) * w) * 2 ^ c = ((2 ^ (p - 1) + m : ℤ) : ℝ) * (2 : ℝ) ^ (1 - (p : ℤ) + c) := by
      rw [zpow_add₀ (by norm_num), ← hw]
      push_cast
      rw [← ew]; ring
    rw [e]
    refine RoundedNormalized.nearest_num (by omega) ?_ ?_
    · rw [z1]; push_cast; rw [abs_of_nonneg (by positivity)]; linarith [(Nat.cast_nonneg m : (0 : ℝ) ≤ m)]
    · rw [z2]; push_cast; rw [abs_of_nonneg (by positivity)]; linarith
  have n0 : nearest p 1 = 1 := by simpa using num 0 (by positivity) 0
  have hkN1 : k < 2 ^ (p - 1) := lt_of_lt_of_le hkN (Nat.pow_le_pow_right (by norm_num) (by omega))
  have hkN2 : 2 * k < 2 ^ (p - 1) := by
    have : 2 ^ (p - 2) * 2 = 2 ^ (p - 1) := by rw [← pow_succ]; congr 1; omega
    omega
  have n1 : nearest p (1 + k * w) = 1 + k * w := by simpa using num k hkN1 0
  have n2 : nearest p (1 + 2 * k * w) = 1 + 2 * k * w := by simpa using num (2 * k) hkN2 0
  have n3 : nearest p (2 * (1 + k * w)) = 2 * (1 + k * w) := by
    have := num k hkN1 1
    rw [zpow_one] at this
    rw [mul_comm 2]; exact this
  have n4 : nearest p ((1 + k * w) * (1 + k * w)) = 1 + 2 * k * w := by
    have hz : (1 + (k : ℝ) * w) * (1 + k * w) = 1 + 2 * k * w + k ^ 2 * w * w := by ring
    have hθ : (k : ℝ) ^ 2 * w < 1 / 2 := by nlinarith
    have h2kw : 2 * (k : ℝ) * w + w / 2 ≤ 1 := by
      have : 2 * (k : ℝ) + 1 ≤ 2 ^ (p - 1) := by exact_mod_cast hkN2
      nlinarith
    rw [RoundedNormalized.nearest_eval (m := 2 ^ (p - 1) + 2 * k) (k := 1 - (p : ℤ))]
    · push_cast; rw [← hw, add_mul, ew]
    · rw [show (p : ℤ) - 1 + (1 - p) = 0 by ring, zpow_zero, hz, abs_of_nonneg (by positivity)]
      nlinarith [mul_nonneg (Nat.cast_nonneg k : (0 : ℝ) ≤ k) hwp.le, mul_nonneg (sq_nonneg (k : ℝ)) (mul_pos hwp hwp).le]
    · rw [show (p : ℤ) + (1 - p) = 1 by ring, zpow_one, hz, abs_of_nonneg (by positivity)]
      nlinarith
    · have e : (2 : ℝ) ^ (-(1 - (p : ℤ))) = 2 ^ (p - 1) := by rw [← z1]; congr 1; ring
      rw [e, hz]
      push_cast
      rw [show (1 + 2 * (k : ℝ) * w + k ^ 2 * w * w) * 2 ^ (p - 1) - (2 ^ (p - 1) + 2 * k) = (2 * k + k ^ 2 * w) * (2 ^ (p - 1) * w) - 2 * k by ring, ew,
        show (2 * (k : ℝ) + k ^ 2 * w) * 1 - 2 * k = k ^ 2 * w by ring, abs_of_nonneg (by positivity)]
      exact hθ
  have hxx : xx 0 = 1 := by
    rcases any_one (hx 0) with h | h <;> rw [h] <;> simp [n0]
  have hyy : yy 0 = 1 + 2 * k * w := by
    rcases any_one (hy 0) with h | h <;> rw [h] <;> simp [n4, n2]
  have hxy' : xy 0 0 = 1 + k * w := by
    rcases any_one (hxy 0 0) with h | h <;> rw [h] <;> simp [n1]
  rw [hD, hxx, hyy, hxy', show 1 + (1 + 2 * (k : ℝ) * w) = 2 * (1 + k * w) by ring, n3, sub_self, fl_zero hr, abs_zero, Real.sqrt_zero, fl_zero hr]

/-- In double precision there are such points at a distance of more than `1e-8`, and a result exists. -/
example : ∃ D, DistanzFl (nearest 53) (Matrix.of fun _ _ : Fin 1 => (1 : ℝ)) (Matrix.of fun _ _ : Fin 1 => 1 + (47000000 : ℕ) * (2 : ℝ) ^ (1 - ((53 : ℕ) : ℤ))) D ∧ D 0 0 = 0 ∧
    (1 / 10 ^ 8 : ℝ) < |1 - (1 + (47000000 : ℕ) * (2 : ℝ) ^ (1 - ((53 : ℕ) : ℤ)))| := by
  obtain ⟨D, hD⟩ := (C150_exact (r := 1) (Matrix.of fun _ _ : Fin 1 => (1 : ℝ)) (Matrix.of fun _ _ : Fin 1 => 1 + (47000000 : ℕ) * (2 : ℝ) ^ (1 - ((53 : ℕ) : ℤ)))).2 (by norm_num) (nearest 53)
  refine ⟨D, hD, C150_separated_violated (by norm_num) (by norm_num) hD, ?_⟩
  rw [show (1 : ℝ) - (1 + (47000000 : ℕ) * (2 : ℝ) ^ (1 - ((53 : ℕ) : ℤ))) = -((47000000 : ℕ) * (2 : ℝ) ^ (1 - ((53 : ℕ) : ℤ))) by ring, abs_neg, abs_of_nonneg (by positivity)]
  norm_num

/-- C150: the computed distance from a point to itself may be non-zero: with `2q + 1` binary digits, for the point `(5/8 2^(-q), 1 + 2^(-q-1))`, it is at least `2^(-q)` (`1.5e-8` in double
precision) when the scalar product uses a fused multiply-add. -/
theorem C150_diagonal_violated {q : ℕ} (hq : 2 ≤ q) :
    ∃ D, DistanzFl (nearest (2 * q + 1)) (Matrix.of fun (k : Fin 2) (_ : Fin 1) => if k = 0 then 5 / 8 * (2 : ℝ) ^ (-(q : ℤ)) else 1 + (2 : ℝ) ^ (-(q : ℤ)) / 2)
      (Matrix.of fun (k : Fin 2) (_ : Fin 1) => if k = 0 then 5 / 8 * (2 : ℝ) ^ (-(q : ℤ)) else 1 + (2 : ℝ) ^ (-(q : ℤ)) / 2) D ∧ (2 : ℝ) ^ (-(q : ℤ)) ≤ D 0 0 := by
  set fl := nearest (2 * q + 1) with hfl
  have hr : Rounds fl _ := (C142_nearest (2 * q + 1)).1
  set h : ℝ := (2 : ℝ) ^ (-(q : ℤ)) with hh
  have hp : 0 < h := by positivity
  have h4 : h ≤ 1 / 4 := by
    rw [hh, _root_.zpow_neg, zpow_natCast, ← one_div]
    refine one_div_le_one_div_of_le (by norm_num) ?_
    calc (4 : ℝ) = 2 ^ 2 := by norm_num
      _ ≤ 2 ^ q := pow_le_pow_right₀ (by norm_num) hq
  have hN : (2 : ℝ) ^ q * h = 1 := by rw [hh, _root_.zpow_neg, zpow_natCast]; field_simp
  have hw : (2 : ℝ) ^ (-(2 * (q : ℤ))) = h * h := by rw [hh, ← zpow_add₀ (by norm_num)]; congr 1; ring
  have hw' : (2 : ℝ) ^ (2 * (q : ℤ)) = 2 ^ q * 2 ^ q := by rw [← zpow_natCast, ← zpow_add₀ (by norm_num)]; congr 1; ring
  -- numbers between one and two
  have ev : ∀ {t : ℝ} {m : ℤ}, 1 ≤ t → t < 2 → |t - m * (h * h)| < h * h / 2 → fl t = m * (h * h) := fun {t m} h1 h2 h3 => by
    have := RoundedNormalized.nearest_eval (p := 2 * q + 1) (x := t) (m := m) (k := -(2 * (q : ℤ))) (by push_cast; rw [show 2 * (q : ℤ) + 1 - 1 + -(2 * q) = 0 by ring, zpow_zero, abs_of_nonneg (by linarith)]; exact h1)
      (by push_cast; rw [show 2 * (q : ℤ) + 1 + -(2 * q) = 1 by ring, zpow_one, abs_of_nonneg (by linarith)]; exact h2) (by
        rw [neg_neg, hw']
        have e : t * (2 ^ q * 2 ^ q) - (m : ℝ) = (t - m * (h * h)) * (2 ^ q * 2 ^ q) := by
          rw [sub_mul, show (m : ℝ) * (h * h) * (2 ^ q * 2 ^ q) = m * (2 ^ q * h) * (2 ^ q * h) by ring, hN]; ring
        rw [e, abs_mul, abs_of_pos (show (0 : ℝ) < 2 ^ q * 2 ^ q by positivity)]
        have e2 : h * h / 2 * (2 ^ q * 2 ^ q) = 1 / 2 := by
          rw [show h * h / 2 * ((2 : ℝ) ^ q * 2 ^ q) = (2 ^ q * h) * (2 ^ q * h) / 2 by ring, hN]; norm_num
        rw [← e2]
        exact mul_lt_mul_of_pos_right h3 (by positivity))
    rw [hfl, this, hw]
  have one : ((2 : ℝ) ^ q * 2 ^ q) * (h * h) = 1 := by rw [show ((2 : ℝ) ^ q * 2 ^ q) * (h * h) = (2 ^ q * h) * (2 ^ q * h) by ring, hN, one_mul]
  have two : (2 : ℝ) ^ q * (h * h) = h := by rw [← mul_assoc, hN, one_mul]
  have m1 : ((2 : ℝ) ^ q * 2 ^ q + 2 ^ q) * (h * h) = 1 + h := by rw [add_mul, one, two]
  have m2 : ((2 : ℝ) ^ q * 2 ^ q + 2 ^ q + 1) * (h * h) = 1 + h + h * h := by rw [add_mul, m1, one_mul]
  have hhp : 0 < h * h := by positivity
  have hhq : h * h ≤ h / 4 := by nlinarith
  -- the square of the large coordinate
  have b1 : fl ((1 + h / 2) * (1 + h / 2)) = 1 + h := by
    have := ev (t := (1 + h / 2) * (1 + h / 2)) (m := 2 ^ q * 2 ^ q + 2 ^ q) (by nlinarith) (by nlinarith) (by
      push_cast
      rw [m1, show (1 + h / 2) * (1 + h / 2) - (1 + h) = h * h / 4 by ring, abs_of_nonneg (by positivity)]
      linarith)
    rw [this]; push_cast; rw [m1]
  -- the square of the small one is exact
  have b2 : fl (5 / 8 * h * (5 / 8 * h)) = 25 / 64 * (h * h) := by
    have hpow : (25 : ℝ) * 2 ^ (2 * q - 4) * (2 : ℝ) ^ (-(4 * (q : ℤ)) - 2) = 25 / 64 * (h * h) := by
      have : (2 : ℝ) ^ (2 * q - 4) * (2 : ℝ) ^ (-(4 * (q : ℤ)) - 2) = (2 : ℝ) ^ (-(2 * (q : ℤ)) - 6) := by
        rw [← zpow_natCast, ← zpow_add₀ (by norm_num), Nat.cast_sub (by omega)]; congr 1; push_cast; ring
      rw [mul_assoc, this, zpow_sub₀ (by norm_num), hw]; norm_num; ring
    have hb : (2 : ℝ) ^ (2 * q - 4) * 16 = 2 ^ (2 * q) := by
      rw [show (16 : ℝ) = 2 ^ 4 by norm_num, ← pow_add]; congr 1; omega
    have := RoundedNormalized.nearest_num (p := 2 * q + 1) (by omega) (m := 25 * 2 ^ (2 * q - 4)) (k := -(4 * (q : ℤ)) - 2)
      (by
        push_cast
        rw [show 2 * (q : ℤ) + 1 - 1 = ((2 * q : ℕ) : ℤ) by push_cast; ring, zpow_natCast, abs_of_nonneg (by positivity)]
        linarith [show (0 : ℝ) < 2 ^ (2 * q - 4) by positivity])
      (by
        rw [zpow_natCast, pow_succ]
        push_cast
        rw [abs_of_nonneg (by positivity)]
        linarith [show (0 : ℝ) < 2 ^ (2 * q - 4) by positivity])
    push_cast at this
    rw [hpow] at this
    rw [show 5 / 8 * h * (5 / 8 * h) = 25 / 64 * (h * h) by ring]
    exact this
  -- the sum of the two rounded squares
  have b3 : fl (25 / 64 * (h * h) + (1 + h)) = 1 + h := by
    have := ev (t := 25 / 64 * (h * h) + (1 + h)) (m := 2 ^ q * 2 ^ q + 2 ^ q) (by nlinarith) (by nlinarith) (by
      push_cast
      rw [m1, show 25 / 64 * (h * h) + (1 + h) - (1 + h) = 25 / 64 * (h * h) by ring, abs_of_nonneg (by positivity)]
      linarith)
    rw [this]; push_cast; rw [m1]
  -- the fused multiply-add
  have b4 : fl (25 / 64 * (h * h) + (1 + h / 2) * (1 + h / 2)) = 1 + h + h * h := by
    have := ev (t := 25 / 64 * (h * h) + (1 + h / 2) * (1 + h / 2)) (m := 2 ^ q * 2 ^ q + 2 ^ q + 1) (by nlinarith) (by nlinarith) (by
      push_cast
      rw [m2, show 25 / 64 * (h * h) + (1 + h / 2) * (1 + h / 2) - (1 + h + h * h) = -(23 / 64 * (h * h)) by ring, abs_neg, abs_of_nonneg (by positivity)]
      linarith)
    rw [this]; push_cast; rw [m2]
  have dbl : ∀ {t : ℝ} {m : ℤ}, 1 ≤ t → t < 2 → t = m * (h * h) → fl (2 * t) = 2 * t := fun {t m} h1 h2 h3 => by
    have hm : (m : ℝ) = t * (2 ^ q * 2 ^ q) := by
      rw [h3, show (m : ℝ) * (h * h) * (2 ^ q * 2 ^ q) = m * (((2 : ℝ) ^ q * 2 ^ q) * (h * h)) by ring, one, mul_one]
    have hqq : (2 : ℝ) ^ q * 2 ^ q = 2 ^ (2 * q) := by rw [← pow_add]; congr 1; ring
    have hm0 : (0 : ℝ) ≤ m := by rw [hm]; positivity
    have := RoundedNormalized.nearest_num (p := 2 * q + 1) (by omega) (m := m) (k := 1 + -(2 * (q : ℤ)))
      (by
        push_cast
        rw [show 2 * (q : ℤ) + 1 - 1 = ((2 * q : ℕ) : ℤ) by push_cast; ring, zpow_natCast, abs_of_nonneg hm0, hm, hqq]
        nlinarith [show (0 : ℝ) < 2 ^ (2 * q) by positivity])
      (by
        rw [zpow_natCast, pow_succ, abs_of_nonneg hm0, hm, hqq]
        nlinarith [show (0 : ℝ) < 2 ^ (2 * q) by positivity])
    rw [zpow_add₀ (by norm_num), zpow_one, hw, show (m : ℝ) * (2 * (h * h)) = 2 * (m * (h * h)) by ring, ← h3] at this
    exact this
  have b5 : fl (1 + h + (1 + h)) = 2 * (1 + h) := by
    rw [← two_mul]
    exact dbl (m := 2 ^ q * 2 ^ q + 2 ^ q) (by linarith) (by linarith) (by push_cast; rw [m1])
  have b6 : fl (2 * (1 + h + h * h)) = 2 * (1 + h + h * h) :=
    dbl (m := 2 ^ q * 2 ^ q + 2 ^ q + 1) (by linarith) (by nlinarith) (by push_cast; rw [m2])
  have b7 : fl (-(2 * (h * h))) = -(2 * (h * h)) := by
    have := RoundedNormalized.nearest_num (p := 2 * q + 1) (by omega) (m := -2 ^ (2 * q)) (k := 1 + -(4 * (q : ℤ)))
      (by
        push_cast
        rw [show 2 * (q : ℤ) + 1 - 1 = ((2 * q : ℕ) : ℤ) by push_cast; ring, zpow_natCast, abs_neg, abs_of_nonneg (by positivity)])
      (by
        rw [zpow_natCast, pow_succ]
        push_cast
        rw [abs_neg, abs_of_nonneg (by positivity)]
        linarith [show (0 : ℝ) < 2 ^ (2 * q) by positivity])
    have e : (((-2 ^ (2 * q) : ℤ)) : ℝ) * (2 : ℝ) ^ (1 + -(4 * (q : ℤ))) = -(2 * (h * h)) := by
      push_cast
      rw [neg_mul, ← zpow_natCast, ← zpow_add₀ (by norm_num), ← hw, ← zpow_one_add₀ (by norm_num)]
      congr 2
      push_cast
      ring
    rw [e] at this
    exact this
  refine ⟨fun _ _ => fl (√|fl (fl (1 + h + (1 + h)) - fl (2 * (1 + h + h * h)))|), ⟨fun _ => 1 + h, fun _ => 1 + h, fun _ _ => 1 + h + h * h, ?_, ?_, ?_, fun _ _ => rfl⟩, ?_⟩
  · intro i
    have := DotAny.add (fl := fl) (a := fun k : Fin 2 => if k = 0 then 5 / 8 * h else 1 + h / 2) (y := fun k : Fin 2 => if k = 0 then 5 / 8 * h else 1 + h / 2)
      (show Disjoint ({0} : Finset (Fin 2)) {1} by simp) (.product 0) (.product 1)
    simp only [if_true, one_ne_zero, if_false, b1, b2, b3] at this
    exact this
  · intro i
    have := DotAny.add (fl := fl) (a := fun k : Fin 2 => if k = 0 then 5 / 8 * h else 1 + h / 2) (y := fun k : Fin 2 => if k = 0 then 5 / 8 * h else 1 + h / 2)
      (show Disjoint ({0} : Finset (Fin 2)) {1} by simp) (.product 0) (.product 1)
    simp only [if_true, one_ne_zero, if_false, b1, b2, b3] at this
    exact this
  · intro i j
    have := DotAny.fma (fl := fl) (a := fun k : Fin 2 => if k = 0 then 5 / 8 * h else 1 + h / 2) (y := fun k : Fin 2 => if k = 0 then 5 / 8 * h else 1 + h / 2)
      (s := {0}) 1 (by simp) (.product 0)
    simp only [if_true, one_ne_zero, if_false, b2, b4] at this
    exact (by simpa [Finset.univ_fin2, Finset.pair_comm] using this)
  · rw [b5, b6, show 2 * (1 + h) - 2 * (1 + h + h * h) = -(2 * (h * h)) by ring, b7, abs_neg, abs_of_pos (by positivity)]
    have e : √(2 * (h * h)) = √2 * h := by rw [Real.sqrt_mul (by norm_num), Real.sqrt_mul_self hp.le]
    rw [e]
    have h2 : (1.4 : ℝ) ≤ √2 := Real.le_sqrt_of_sq_le (by norm_num)
    have h3 := (abs_le.1 (hr.err (√2 * h))).1
    rw [abs_of_nonneg (by positivity)] at h3
    have hu : (2 : ℝ) ^ (-((2 * q + 1 : ℕ) : ℤ)) ≤ 1 / 4 := by
      rw [_root_.zpow_neg, zpow_natCast, ← one_div]
      refine one_div_le_one_div_of_le (by norm_num) ?_
      calc (4 : ℝ) = 2 ^ 2 := by norm_num
        _ ≤ 2 ^ (2 * q + 1) := pow_le_pow_right₀ (by norm_num) (by omega)
    set v := (2 : ℝ) ^ (-((2 * q + 1 : ℕ) : ℤ))
    have h5 : √2 * h * v ≤ √2 * h * (1 / 4) := mul_le_mul_of_nonneg_left hu (by positivity)
    have h6 : (1.4 : ℝ) * h ≤ √2 * h := mul_le_mul_of_nonneg_right h2 hp.le
    rw [mul_comm v] at h3
    linarith

end PyGSP
