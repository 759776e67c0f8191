import Verif.Model.RoundedNormalized
import Verif.Props.RoundedChecks

/-!
# C145: rounding errors of the normalized Laplacian
-/

namespace PyGSP

open Matrix Spec Rounding GState

variable {n : ℕ}

namespace Spec

/-- The undirected weight divided by the square roots of the weighted degrees (zero if one of them is zero). -/
noncomputable def normWeight (M : Matrix (Fin n) (Fin n) ℝ) (i j : Fin n) : ℝ := wsym M i j / (√(wdeg M i) * √(wdeg M j))

/-- The computed power `x ^ (-1/2)` is exact up to the relative error of `j` operations. -/
def PowerError (u : ℝ) (j : ℕ) (pow : ℝ → ℝ) : Prop := ∀ x, 0 < x → |pow x - 1 / √x| ≤ roundings u j * (1 / √x)

end Spec

namespace RoundedNormalized

theorem normWeight_nscale (M : Matrix (Fin n) (Fin n) ℝ) (i j : Fin n) : normWeight M i j = nscale M i * wsym M i j * nscale M j := by
  unfold normWeight nscale
  by_cases hi : wdeg M i = 0
  · simp [hi]
  by_cases hj : wdeg M j = 0
  · simp [hj]
  rw [if_neg hi, if_neg hj]
  simp only [div_eq_mul_inv, mul_inv, one_mul]
  ring

theorem normWeight_nonneg {M : Matrix (Fin n) (Fin n) ℝ} (hM : NonnegW M) (i j : Fin n) : 0 ≤ normWeight M i j :=
  div_nonneg (wsym_nonneg hM i j) (by positivity)

theorem normWeight_comm (M : Matrix (Fin n) (Fin n) ℝ) (i j : Fin n) : normWeight M i j = normWeight M j i := by
  unfold normWeight
  rw [wsym_comm M i j, mul_comm (√(wdeg M i))]

/-- the entries of the exact matrix -/
theorem exact_entry (W : Sp n n ℝ) (hW : NonnegW W.dense) {L : Matrix (Fin n) (Fin n) ℝ} (hL : laplacian W .normalized = .ok L) (i j : Fin n) :
    L i j = (if i = j ∧ wdeg W.dense i ≠ 0 then 1 else 0) - normWeight W.dense i j := by
  obtain ⟨L', h1, h2, h3, -⟩ := C12_normalized W hW
  rw [hL] at h1
  cases h1
  by_cases hi : wdeg W.dense i = 0
  · rw [(h3 i j hi).1, normWeight_nscale]
    simp [hi, nscale]
  by_cases hj : wdeg W.dense j = 0
  · rw [(h3 j i hj).2, normWeight_nscale, if_neg (by rintro ⟨rfl, h⟩; exact h hj)]
    simp [hj, nscale]
  · rw [h2 i j hi hj]
    simp [hi, normWeight]

/-- inverse square root of a number with a relative error -/
theorem inv_sqrt_near {u : ℝ} {k : ℕ} {x y : ℝ} (hx : 0 < x) (h : |y - x| ≤ ((1 + u) ^ k - 1) * x) (hk : (1 + u) ^ k - 1 ≤ 1 / 2) :
    0 < y ∧ |1 / √y - 1 / √x| ≤ ((1 + u) ^ k - 1) * (1 / √x) := by
  set γ := (1 + u) ^ k - 1
  have hγ0 : 0 ≤ γ := by
    by_contra hneg
    have := mul_neg_of_neg_of_pos (not_le.1 hneg) hx
    have := abs_nonneg (y - x)
    linarith
  obtain ⟨h1, h2⟩ := abs_le.1 h
  have hy1 : (1 - γ) * x ≤ y := by linarith
  have hy2 : y ≤ (1 + γ) * x := by linarith
  have hy : 0 < y := lt_of_lt_of_le (mul_pos (by linarith) hx) hy1
  refine ⟨hy, ?_⟩
  have hsx : 0 < √x := Real.sqrt_pos.2 hx
  have hsy : 0 < √y := Real.sqrt_pos.2 hy
  -- √x ≤ (1 + γ) √y
  have a1 : √x ≤ (1 + γ) * √y := by
    rw [← Real.sqrt_sq (show (0 : ℝ) ≤ 1 + γ by linarith), ← Real.sqrt_mul (sq_nonneg _)]
    refine Real.sqrt_le_sqrt ?_
    have h3 : (1 + γ) ^ 2 * ((1 - γ) * x) ≤ (1 + γ) ^ 2 * y := mul_le_mul_of_nonneg_left hy1 (sq_nonneg _)
    have h4 : 1 ≤ (1 + γ) ^ 2 * (1 - γ) := by nlinarith [mul_nonneg hγ0 (show (0 : ℝ) ≤ 1 - γ - γ ^ 2 by nlinarith)]
    have h5 := mul_le_mul_of_nonneg_right h4 hx.le
    nlinarith
  -- (1 - γ) √y ≤ √x
  have a2 : (1 - γ) * √y ≤ √x := by
    rw [← Real.sqrt_sq (show (0 : ℝ) ≤ 1 - γ by linarith), ← Real.sqrt_mul (sq_nonneg _)]
    refine Real.sqrt_le_sqrt ?_
    have h3 : (1 - γ) ^ 2 * y ≤ (1 - γ) ^ 2 * ((1 + γ) * x) := mul_le_mul_of_nonneg_left hy2 (sq_nonneg _)
    have h4 : (1 - γ) ^ 2 * (1 + γ) ≤ 1 := by nlinarith [mul_nonneg hγ0 hγ0, mul_nonneg hγ0 (show (0 : ℝ) ≤ 1 - γ by linarith)]
    have h5 := mul_le_mul_of_nonneg_right h4 hx.le
    nlinarith
  rw [abs_le]
  constructor
  · have : (1 - γ) * (1 / √x) ≤ 1 / √y := by
      rw [mul_one_div, div_le_div_iff₀ hsx hsy]
      linarith
    linarith
  · have : 1 / √y ≤ (1 + γ) * (1 / √x) := by
      rw [mul_one_div, div_le_div_iff₀ hsy hsx]
      linarith
    linarith

section
variable {u : ℝ} {fl pow : ℝ → ℝ} {W : Sp n n ℝ} {m j : ℕ} (hr : Rounds fl u) (hp : PowerError u j pow) (hnn : NonnegW W.dense)
  (hrow : ∀ v, (Finset.univ.filter fun w => W.dense v w ≠ 0).card ≤ m) (hcol : ∀ v, (Finset.univ.filter fun w => W.dense w v ≠ 0).card ≤ m) (hsmall : roundings u (m + 3) ≤ 1 / 2)
include hr hnn hrow hcol hsmall

theorem dw_zero (v : Fin n) : dwFl fl W v = 0 ↔ wdeg W.dense v = 0 := by
  have h := (dw_near hr hnn hrow hcol v).1
  constructor
  · intro h0
    rw [h0, zero_sub, abs_neg, abs_of_nonneg (wdeg_nonneg hnn v)] at h
    have hs : (1 + u) ^ (m + 3) - 1 ≤ 1 / 2 := hsmall
    have := wdeg_nonneg hnn v
    nlinarith
  · intro h0
    rw [h0, sub_zero, mul_zero] at h
    exact abs_nonpos_iff.1 h

include hp in
theorem scale_near (v : Fin n) : Near u (m + 3 + j) (invSqrtFl fl pow W v) (nscale W.dense v) (nscale W.dense v) := by
  unfold invSqrtFl nscale
  by_cases h0 : wdeg W.dense v = 0
  · rw [if_pos ((dw_zero hr hnn hrow hcol hsmall v).2 h0), if_pos h0]
    exact ⟨by simp, by simp⟩
  · rw [if_neg (fun h => h0 ((dw_zero hr hnn hrow hcol hsmall v).1 h)), if_neg h0]
    have hpos : 0 < wdeg W.dense v := lt_of_le_of_ne (wdeg_nonneg hnn v) (Ne.symm h0)
    obtain ⟨hy, h1⟩ := inv_sqrt_near hpos (dw_near hr hnn hrow hcol v).1 hsmall
    have h2 := hp _ hy
    set a := 1 / √(dwFl fl W v)
    set b := 1 / √(wdeg W.dense v)
    have hb : 0 ≤ b := by positivity
    refine ⟨?_, by rw [abs_of_nonneg hb]⟩
    have hg := one_le_pow hr.nonneg j
    have hg3 := one_le_pow hr.nonneg (m + 3)
    have ha : a ≤ (1 + u) ^ (m + 3) * b := by
      have := (abs_le.1 h1).2
      linarith
    have h2' : |pow (dwFl fl W v) - a| ≤ ((1 + u) ^ j - 1) * a := h2
    calc |pow (dwFl fl W v) - b| ≤ |pow (dwFl fl W v) - a| + |a - b| := abs_sub_le _ _ _
      _ ≤ ((1 + u) ^ j - 1) * ((1 + u) ^ (m + 3) * b) + ((1 + u) ^ (m + 3) - 1) * b := add_le_add (h2'.trans (mul_le_mul_of_nonneg_left ha (by linarith))) h1
      _ = ((1 + u) ^ (m + 3 + j) - 1) * b := by rw [pow_add]; ring

end

end RoundedNormalized

open RoundedNormalized

/-- **C145** With exact arithmetic and an exact power, the floating-point matrix is the normalized Laplacian of the other theorems. -/
theorem C145_exact (W : Sp n n ℝ) : laplacian W .normalized = .ok (normLapFl (fun x => x) (fun x => x ^ (-(1 / 2) : ℝ)) W) := by
  have hd : dwFl (fun x => x) W = dw W := by
    funext i
    unfold dwFl dw
    simp [dotFl_exact]
  have hs : ∀ i j, symFl (fun x => x) W i j = lapWeights W i j := fun i j => by
    unfold symFl lapWeights symAverage
    split <;> simp
  unfold laplacian normLapFl invSqrtFl
  dsimp only
  congr 1
  ext i j
  simp only [Matrix.of_apply, hd, hs, zero_add, Matrix.sub_apply, Matrix.one_apply, Matrix.mul_diagonal, Matrix.diagonal_mul, invSqrtDegree]

section
variable {u : ℝ} {fl pow : ℝ → ℝ} {W : Sp n n ℝ} {m j : ℕ} (hr : Rounds fl u) (hp : PowerError u j pow) (hnn : NonnegW W.dense)
  (hrow : ∀ v, (Finset.univ.filter fun w => W.dense v w ≠ 0).card ≤ m) (hcol : ∀ v, (Finset.univ.filter fun w => W.dense w v ≠ 0).card ≤ m) (hsmall : roundings u (m + 3) ≤ 1 / 2)
  {L : Matrix (Fin n) (Fin n) ℝ} (hL : laplacian W .normalized = .ok L)
include hr hp hnn hrow hcol hsmall hL

/-- **C145** The entries of the normalized Laplacian, computed with a relative error `u` in each operation: each is exact up to the rounding of `2 (m + j) + 13` operations, where `m` bounds the number
of in-neighbors and of out-neighbors of a vertex; in particular the entries that are zero are computed as zero (those of isolated vertices, and of two different vertices that are not connected). -/
theorem C145_entries (v w : Fin n) :
    |normLapFl fl pow W v w - L v w| ≤ roundings u (2 * (m + j) + 13) * ((if v = w ∧ wdeg W.dense v ≠ 0 then 1 else 0) + normWeight W.dense v w) := by
  rw [exact_entry W hnn hL]
  have hz := dw_zero hr hnn hrow hcol hsmall v
  have h1 := scale_near hr hp hnn hrow hcol hsmall v
  have h2 := scale_near hr hp hnn hrow hcol hsmall w
  have hs := sym_near hr hnn v w
  have h3 := ((((h1.mul hr.nonneg hs).round hr).round hr).mul hr.nonneg h2).round hr |>.round hr
  rw [← normWeight_nscale] at h3
  unfold normLapFl
  rw [Matrix.of_apply]
  simp only [zero_add]
  by_cases hc : v = w ∧ dwFl fl W v = 0
  · have h0 := hz.1 hc.2
    rw [if_pos hc, if_neg (fun h => h.2 h0), normWeight_nscale]
    simp [nscale, h0]
  · rw [if_neg hc]
    have e : (if v = w ∧ wdeg W.dense v ≠ 0 then (1 : ℝ) else 0) = if v = w then 1 else 0 := by
      by_cases hvw : v = w
      · have : wdeg W.dense v ≠ 0 := fun h => hc ⟨hvw, hz.2 h⟩
        simp [hvw, this]
        rw [← hvw]; exact this
      · simp [hvw]
    rw [e]
    have h4 : Near u 0 (if v = w then (1 : ℝ) else 0) (if v = w then (1 : ℝ) else 0) (if v = w then (1 : ℝ) else 0) := by
      have := Near.refl (u := u) (if v = w then (1 : ℝ) else 0)
      rwa [abs_of_nonneg (by split <;> norm_num)] at this
    have h5 := ((h4.mono hr.nonneg (Nat.zero_le _) le_rfl).sub h3).round hr
    exact (h5.mono hr.nonneg (m' := 2 * (m + j) + 13) (by omega) le_rfl).1

/-- **C145** The frequencies of the matrix that the eigensolver reads (the lower triangle of the computed Laplacian, which need not be symmetric) are within twice that relative error of the exact
ones, whatever the weights, the degrees and the size of the graph. -/
theorem C145_frequencies {e e' : Fin n → ℝ} {U U' : Matrix (Fin n) (Fin n) ℝ} (h : IsEigenPairs L e U) (h' : IsEigenPairs (lowerTriangle (normLapFl fl pow W)) e' U') (he : Monotone e)
    (he' : Monotone e') (k : Fin n) : |e' k - e k| ≤ 2 * roundings u (2 * (m + j) + 13) := by
  set κ := roundings u (2 * (m + j) + 13) with hκ
  have hκ0 : 0 ≤ κ := roundings_nonneg hr.nonneg _
  obtain ⟨L', l1, -, -, hsym, hpsd, -⟩ := C12_normalized W hnn
  rw [hL] at l1
  cases l1
  set A := lowerTriangle (normLapFl fl pow W)
  have hent : ∀ v w, |A v w - L v w| ≤ κ * ((if v = w ∧ wdeg W.dense v ≠ 0 then 1 else 0) + normWeight W.dense v w) := fun v w => by
    rcases le_total v w with hvw | hvw
    · have e1 : A v w = normLapFl fl pow W w v := by simp [A, lowerTriangle, max_eq_right hvw, min_eq_left hvw]
      rw [e1, hsym v w, normWeight_comm]
      have := C145_entries hr hp hnn hrow hcol hsmall hL w v
      refine this.trans (le_of_eq ?_)
      congr 2
      by_cases hh : v = w
      · subst hh; rfl
      · rw [if_neg fun h => hh h.1.symm, if_neg fun h => hh h.1]
    · have e1 : A v w = normLapFl fl pow W v w := by simp [A, lowerTriangle, max_eq_left hvw, min_eq_right hvw]
      rw [e1]
      exact C145_entries hr hp hnn hrow hcol hsmall hL v w
  have hquad : ∀ x : Fin n → ℝ, |x ⬝ᵥ (A *ᵥ x) - x ⬝ᵥ (L *ᵥ x)| ≤ 2 * κ * (x ⬝ᵥ x) := fun x => by
    have e1 : x ⬝ᵥ (A *ᵥ x) - x ⬝ᵥ (L *ᵥ x) = ∑ v, ∑ w, x v * ((A v w - L v w) * x w) := by
      simp only [dotProduct, Matrix.mulVec, Finset.mul_sum, ← Finset.sum_sub_distrib]
      refine Finset.sum_congr rfl fun v _ => Finset.sum_congr rfl fun w _ => by ring
    have hpos := hpsd fun v => |x v|
    have e2 : (fun v => |x v|) ⬝ᵥ (L *ᵥ fun v => |x v|) = ∑ v, ∑ w, (if v = w ∧ wdeg W.dense v ≠ 0 then (1 : ℝ) else 0) * (|x v| * |x w|) - ∑ v, ∑ w, normWeight W.dense v w * (|x v| * |x w|) := by
      simp only [dotProduct, Matrix.mulVec, Finset.mul_sum, ← Finset.sum_sub_distrib]
      refine Finset.sum_congr rfl fun v _ => Finset.sum_congr rfl fun w _ => ?_
      rw [exact_entry W hnn hL]
      ring
    have e3 : ∑ v, ∑ w, (if v = w ∧ wdeg W.dense v ≠ 0 then (1 : ℝ) else 0) * (|x v| * |x w|) ≤ x ⬝ᵥ x := by
      refine Finset.sum_le_sum fun v _ => ?_
      rw [Finset.sum_eq_single v (fun w _ hw => by rw [if_neg fun h => hw h.1.symm, zero_mul]) (by simp), abs_mul_abs_self]
      by_cases h0 : wdeg W.dense v = 0
      · simp [h0, mul_self_nonneg]
      · simp [h0]
    rw [e1]
    calc |∑ v, ∑ w, x v * ((A v w - L v w) * x w)| ≤ ∑ v, ∑ w, |x v * ((A v w - L v w) * x w)| :=
          (Finset.abs_sum_le_sum_abs _ _).trans (Finset.sum_le_sum fun v _ => Finset.abs_sum_le_sum_abs _ _)
      _ ≤ ∑ v, ∑ w, κ * ((if v = w ∧ wdeg W.dense v ≠ 0 then 1 else 0) + normWeight W.dense v w) * (|x v| * |x w|) := by
        refine Finset.sum_le_sum fun v _ => Finset.sum_le_sum fun w _ => ?_
        rw [abs_mul, abs_mul, show |x v| * (|A v w - L v w| * |x w|) = |A v w - L v w| * (|x v| * |x w|) by ring]
        exact mul_le_mul_of_nonneg_right (hent v w) (by positivity)
      _ = κ * (∑ v, ∑ w, (if v = w ∧ wdeg W.dense v ≠ 0 then (1 : ℝ) else 0) * (|x v| * |x w|) + ∑ v, ∑ w, normWeight W.dense v w * (|x v| * |x w|)) := by
        rw [← Finset.sum_add_distrib, Finset.mul_sum]
        refine Finset.sum_congr rfl fun v _ => ?_
        rw [← Finset.sum_add_distrib, Finset.mul_sum]
        exact Finset.sum_congr rfl fun w _ => by ring
      _ ≤ κ * (x ⬝ᵥ x + x ⬝ᵥ x) := mul_le_mul_of_nonneg_left (by linarith) hκ0
      _ = 2 * κ * (x ⬝ᵥ x) := by ring
  have key : ∀ {A B V V' : Matrix (Fin n) (Fin n) ℝ} {a b : Fin n → ℝ}, IsEigenPairs A a V → IsEigenPairs B b V' → Monotone a → Monotone b →
      (∀ x : Fin n → ℝ, x ⬝ᵥ (A *ᵥ x) - x ⬝ᵥ (B *ᵥ x) ≤ 2 * κ * (x ⬝ᵥ x)) → a k ≤ b k + 2 * κ := by
    intro A B V V' a b hA hB ha hb hx
    refine Weyl.le_of_quad_le hA (shift_pairs hB (2 * κ)) ha (fun a b hab => add_le_add_left (hb hab) _) (fun x => ?_) k
    rw [Matrix.add_mulVec, Matrix.smul_mulVec, Matrix.one_mulVec, dotProduct_add, dotProduct_smul, smul_eq_mul]
    linarith [hx x]
  rw [abs_le]
  have k1 := key h' h he' he fun x => (abs_le.1 (hquad x)).2
  have k2 := key h h' he he' fun x => by linarith [(abs_le.1 (hquad x)).1]
  constructor <;> linarith

end

namespace RoundedNormalized

/-- how to evaluate the rounding to nearest -/
theorem nearest_eval {p : ℕ} {x : ℝ} {m k : ℤ} (h1 : (2 : ℝ) ^ ((p : ℤ) - 1 + k) ≤ |x|) (h2 : |x| < (2 : ℝ) ^ ((p : ℤ) + k)) (h3 : |x * (2 : ℝ) ^ (-k) - m| < 1 / 2) :
    nearest p x = m * (2 : ℝ) ^ k := by
  have hx : 0 < |x| := lt_of_lt_of_le (by positivity) h1
  have hlog : Int.log 2 |x| = (p : ℤ) - 1 + k := by
    have a1 : (p : ℤ) - 1 + k ≤ Int.log 2 |x| := (Int.zpow_le_iff_le_log (by norm_num) hx).1 (by exact_mod_cast h1)
    have a2 : Int.log 2 |x| < (p : ℤ) + k := (Int.lt_zpow_iff_log_lt (by norm_num) hx).1 (by exact_mod_cast h2)
    omega
  unfold nearest
  rw [hlog, show (p : ℤ) - 1 - ((p : ℤ) - 1 + k) = -k by ring, show (p : ℤ) - 1 + k - ((p : ℤ) - 1) = k by ring]
  congr 2
  rw [round_eq, Int.floor_eq_iff]
  obtain ⟨h4, h5⟩ := abs_lt.1 h3
  constructor <;> linarith

/-- numbers with `p` digits are not changed -/
theorem nearest_num {p : ℕ} (hp : 0 < p) {m k : ℤ} (h1 : (2 : ℝ) ^ ((p : ℤ) - 1) ≤ |(m : ℝ)|) (h2 : |(m : ℝ)| < (2 : ℝ) ^ (p : ℤ)) : nearest p (m * (2 : ℝ) ^ k) = m * (2 : ℝ) ^ k := by
  have hk : (0 : ℝ) < 2 ^ k := by positivity
  have e : |(m : ℝ) * 2 ^ k| = |(m : ℝ)| * 2 ^ k := by rw [abs_mul, abs_of_pos hk]
  refine nearest_eval ?_ ?_ ?_
  · rw [e, zpow_add₀ (by norm_num)]
    exact mul_le_mul_of_nonneg_right h1 hk.le
  · rw [e, zpow_add₀ (by norm_num)]
    exact mul_lt_mul_of_pos_right h2 hk
  · rw [mul_assoc, ← zpow_add₀ (by norm_num)]
    simp

/-- a triangle with the weights 7, 2 and 18: the weighted degrees are 9, 25 and 20 -/
def triangle : Matrix (Fin 3) (Fin 3) ℝ := !![0, 7, 2; 7, 0, 18; 2, 18, 0]

theorem power_nearest (p : ℕ) : PowerError ((2 : ℝ) ^ (-(p : ℤ))) 1 fun x => nearest p (1 / √x) := fun x hx => by
  have := (C142_nearest p).1.err (1 / √x)
  rw [abs_of_pos (by positivity : 0 < 1 / √x)] at this
  simpa [roundings] using this

end RoundedNormalized

/-- **C145** FINDING: the computed normalized Laplacian need not be symmetric.  For the triangle with the weights 7, 2 and 18, in double precision (53 binary digits, rounding to nearest, with a
power that is rounded correctly), `L[0, 1]` and `L[1, 0]` differ, because `(d[0] * W[0, 1]) * d[1]` and `(d[1] * W[1, 0]) * d[0]` are rounded differently. -/
theorem C145_symmetric_violated : ∃ g : Graph 3 ℝ, g.Built ∧ NonnegW g.W.dense ∧ Undirected g.W.dense ∧ (∀ i, g.W.dense i i = 0) ∧
    normLapFl (nearest 53) (fun x => nearest 53 (1 / √x)) g.W 0 1 ≠ normLapFl (nearest 53) (fun x => nearest 53 (1 / √x)) g.W 1 0 := by
  obtain ⟨g, hg, hd, -⟩ := Graph.exists_built (K := ℝ) triangle .normalized
  have hu : Undirected g.W.dense := by
    rw [hd]; intro i j; fin_cases i <;> fin_cases j <;> simp [triangle]
  refine ⟨g, hg, ?_, hu, ?_, ?_⟩
  · rw [hd]; intro i j; fin_cases i <;> fin_cases j <;> simp [triangle]
  · rw [hd]; intro i; fin_cases i <;> simp [triangle]
  have hdir : isDirected g.W = false := (isDirected_eq_false_iff _).2 hu
  have hint : ∀ z : ℤ, |z| < 2 ^ 53 → nearest 53 (z : ℝ) = z := (C142_nearest 53).2
  have i7 : nearest 53 7 = 7 := by have := hint 7 (by norm_num); exact_mod_cast this
  have i2 : nearest 53 2 = 2 := by have := hint 2 (by norm_num); exact_mod_cast this
  have i18 : nearest 53 18 = 18 := by have := hint 18 (by norm_num); exact_mod_cast this
  have i9 : nearest 53 9 = 9 := by have := hint 9 (by norm_num); exact_mod_cast this
  have i25 : nearest 53 25 = 25 := by have := hint 25 (by norm_num); exact_mod_cast this
  have w0 : dwFl (nearest 53) g.W 0 = 9 := by
    unfold dwFl dotFl
    rw [hdir, hd]
    simp only [Bool.false_eq_true, if_false]
    have : ((List.finRange 3).filter fun j => decide (triangle j 0 ≠ 0)) = [1, 2] := by
      simp [List.finRange, triangle]
    rw [this]
    simp [triangle, i7, i2]
    norm_num [i9]
  have w1 : dwFl (nearest 53) g.W 1 = 25 := by
    unfold dwFl dotFl
    rw [hdir, hd]
    simp only [Bool.false_eq_true, if_false]
    have : ((List.finRange 3).filter fun j => decide (triangle j 1 ≠ 0)) = [0, 2] := by
      simp [List.finRange, triangle]
    rw [this]
    simp [triangle, i7, i18]
    norm_num [i25]
  have s0 : invSqrtFl (nearest 53) (fun x => nearest 53 (1 / √x)) g.W 0 = 6004799503160661 * (2 : ℝ) ^ (-54 : ℤ) := by
    unfold invSqrtFl
    rw [w0, if_neg (by norm_num), show (9 : ℝ) = 3 ^ 2 by norm_num]
    beta_reduce
    rw [Real.sqrt_sq (by norm_num)]
    have := nearest_eval (p := 53) (x := 1 / 3) (m := 6004799503160661) (k := -54) (by norm_num) (by norm_num) (by norm_num [abs_lt])
    exact_mod_cast this
  have s1 : invSqrtFl (nearest 53) (fun x => nearest 53 (1 / √x)) g.W 1 = 7205759403792794 * (2 : ℝ) ^ (-55 : ℤ) := by
    unfold invSqrtFl
    rw [w1, if_neg (by norm_num), show (25 : ℝ) = 5 ^ 2 by norm_num]
    beta_reduce
    rw [Real.sqrt_sq (by norm_num)]
    have := nearest_eval (p := 53) (x := 1 / 5) (m := 7205759403792794) (k := -55) (by norm_num) (by norm_num) (by norm_num [abs_lt])
    exact_mod_cast this
  have y01 : symFl (nearest 53) g.W 0 1 = 7 := by unfold symFl; rw [hdir, hd]; simp [triangle]
  have y10 : symFl (nearest 53) g.W 1 0 = 7 := by unfold symFl; rw [hdir, hd]; simp [triangle]
  have num : ∀ m k : ℤ, (2 : ℝ) ^ (52 : ℤ) ≤ |(m : ℝ)| → |(m : ℝ)| < (2 : ℝ) ^ (53 : ℤ) → nearest 53 (m * (2 : ℝ) ^ k) = m * (2 : ℝ) ^ k := fun m k h1 h2 =>
    nearest_num (by norm_num) (by simpa using h1) (by simpa using h2)
  have a1 : nearest 53 (6004799503160661 * (2 : ℝ) ^ (-54 : ℤ) * 7) = ((5254199565265578 : ℤ) : ℝ) * (2 : ℝ) ^ (-51 : ℤ) :=
    nearest_eval (by norm_num) (by norm_num) (by norm_num [abs_lt])
  have a2 : nearest 53 (((5254199565265578 : ℤ) : ℝ) * (2 : ℝ) ^ (-51 : ℤ) * (7205759403792794 * (2 : ℝ) ^ (-55 : ℤ))) = ((8406719304424925 : ℤ) : ℝ) * (2 : ℝ) ^ (-54 : ℤ) :=
    nearest_eval (by norm_num) (by norm_num) (by norm_num [abs_lt])
  have b1 : nearest 53 (7205759403792794 * (2 : ℝ) ^ (-55 : ℤ) * 7) = ((6305039478318695 : ℤ) : ℝ) * (2 : ℝ) ^ (-52 : ℤ) :=
    nearest_eval (by norm_num) (by norm_num) (by norm_num [abs_lt])
  have b2 : nearest 53 (((6305039478318695 : ℤ) : ℝ) * (2 : ℝ) ^ (-52 : ℤ) * (6004799503160661 * (2 : ℝ) ^ (-54 : ℤ))) = ((8406719304424926 : ℤ) : ℝ) * (2 : ℝ) ^ (-54 : ℤ) :=
    nearest_eval (by norm_num) (by norm_num) (by norm_num [abs_lt])
  have c1 : nearest 53 (-(((8406719304424925 : ℤ) : ℝ) * (2 : ℝ) ^ (-54 : ℤ))) = ((-8406719304424925 : ℤ) : ℝ) * (2 : ℝ) ^ (-54 : ℤ) :=
    nearest_eval (by norm_num) (by norm_num) (by norm_num [abs_lt])
  have c2 : nearest 53 (-(((8406719304424926 : ℤ) : ℝ) * (2 : ℝ) ^ (-54 : ℤ))) = ((-8406719304424926 : ℤ) : ℝ) * (2 : ℝ) ^ (-54 : ℤ) :=
    nearest_eval (by norm_num) (by norm_num) (by norm_num [abs_lt])
  have z01 : normLapFl (nearest 53) (fun x => nearest 53 (1 / √x)) g.W 0 1 = ((-8406719304424925 : ℤ) : ℝ) * (2 : ℝ) ^ (-54 : ℤ) := by
    unfold normLapFl
    rw [Matrix.of_apply, if_neg (by simp), if_neg (by simp), s0, s1, y01, zero_add, zero_add, zero_sub, a1, num _ _ (by norm_num) (by norm_num), a2, num _ _ (by norm_num) (by norm_num), c1]
  have z10 : normLapFl (nearest 53) (fun x => nearest 53 (1 / √x)) g.W 1 0 = ((-8406719304424926 : ℤ) : ℝ) * (2 : ℝ) ^ (-54 : ℤ) := by
    unfold normLapFl
    rw [Matrix.of_apply, if_neg (by simp), if_neg (by simp), s0, s1, y10, zero_add, zero_add, zero_sub, b1, num _ _ (by norm_num) (by norm_num), b2, num _ _ (by norm_num) (by norm_num), c2]
  rw [z01, z10]
  norm_num

/-- The hypotheses of the theorems above are met: double precision and that triangle, whose vertices have two neighbors. -/
example : ∃ g : Graph 3 ℝ, g.Built ∧ Rounds (nearest 53) ((2 : ℝ) ^ (-(53 : ℤ))) ∧ PowerError ((2 : ℝ) ^ (-(53 : ℤ))) 1 (fun x => nearest 53 (1 / √x)) ∧ NonnegW g.W.dense ∧
    (∀ v, (Finset.univ.filter fun w => g.W.dense v w ≠ 0).card ≤ 2) ∧ (∀ v, (Finset.univ.filter fun w => g.W.dense w v ≠ 0).card ≤ 2) ∧ roundings ((2 : ℝ) ^ (-(53 : ℤ))) (2 + 3) ≤ 1 / 2 := by
  obtain ⟨g, hg, hd, -⟩ := Graph.exists_built (K := ℝ) triangle .normalized
  have key : ∀ v : Fin 3, (Finset.univ.filter fun w => w ≠ v).card ≤ 2 := by decide
  refine ⟨g, hg, by exact_mod_cast (C142_nearest 53).1, by exact_mod_cast power_nearest 53, ?_, fun v => ?_, fun v => ?_, ?_⟩
  · rw [hd]; intro i j; fin_cases i <;> fin_cases j <;> simp [triangle]
  · refine (Finset.card_le_card fun w hw => ?_).trans (key v)
    rw [Finset.mem_filter] at hw ⊢
    refine ⟨hw.1, fun h => hw.2 ?_⟩
    rw [h, hd]; fin_cases v <;> simp [triangle]
  · refine (Finset.card_le_card fun w hw => ?_).trans (key v)
    rw [Finset.mem_filter] at hw ⊢
    refine ⟨hw.1, fun h => hw.2 ?_⟩
    rw [h, hd]; fin_cases v <;> simp [triangle]
  · unfold roundings; norm_num

end PyGSP
