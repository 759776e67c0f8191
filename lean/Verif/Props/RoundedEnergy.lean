import Verif.Model.RoundedEnergy
import Verif.Props.RoundedNormalized

/-!
# C148: rounding errors of `dirichlet_energy`, `grad` and `div`
-/

namespace PyGSP

open Matrix Spec Rounding

variable {n : ℕ}

namespace RoundedEnergy

theorem dot_any {u : ℝ} {fl : ℝ → ℝ} (hr : Rounds fl u) {ι : Type} [DecidableEq ι] {a y p q : ι → ℝ} {s : Finset ι} {r : ℝ} {k : ℕ} (h : DotAny fl a y s r)
    (hp : ∀ i, Near u k (a i * y i) (p i) (q i)) : 1 ≤ s.card ∧ Near u (k + s.card + 1) r (∑ i ∈ s, p i) (∑ i ∈ s, q i) := by
  induction h with
  | product i =>
    simp only [Finset.sum_singleton, Finset.card_singleton]
    exact ⟨le_rfl, ((hp i).round hr).mono hr.nonneg (by omega) le_rfl⟩
  | register i =>
    simp only [Finset.sum_singleton, Finset.card_singleton, zero_add]
    exact ⟨le_rfl, (((hp i).round hr).round hr).mono hr.nonneg (by omega) le_rfl⟩
  | fma i hi _ ih =>
    rw [Finset.sum_insert hi, Finset.sum_insert hi, Finset.card_insert_of_notMem hi, add_comm (p i), add_comm (q i)]
    exact ⟨by omega, (((ih.2.add ((hp i).mono hr.nonneg (by omega) le_rfl)).round hr)).mono hr.nonneg (by omega) le_rfl⟩
  | add hd _ _ ih ih' =>
    rw [Finset.sum_union hd, Finset.sum_union hd, Finset.card_union_of_disjoint hd]
    refine ⟨by omega, ?_⟩
    have h1 := ih.1
    have h2 := ih'.1
    rename_i s t _ _ _ _
    exact ((((ih.2.mono hr.nonneg (m' := k + s.card + t.card) (by omega) le_rfl).add (ih'.2.mono hr.nonneg (by omega) le_rfl)).round hr)).mono hr.nonneg (by omega) le_rfl

section

variable {u : ℝ} {fl : ℝ → ℝ} {W : Sp n n ℝ} {m : ℕ}

theorem lap_near (hr : Rounds fl u) (hnn : NonnegW W.dense) (hm : ∀ v, (Finset.univ.filter fun w => W.dense v w ≠ 0 ∨ W.dense w v ≠ 0 ∨ v = w).card ≤ m) (v w : Fin n) :
    Near u (m + 4) (combLapFl fl W v w) (combLap W.dense v w) ((if v = w then wdeg W.dense v else 0) + wsym W.dense v w) := by
  have hrow : ∀ v, (Finset.univ.filter fun w => W.dense v w ≠ 0).card ≤ m := fun v =>
    (Finset.card_le_card fun w hw => by simp only [Finset.mem_filter, Finset.mem_univ, true_and] at hw ⊢; exact .inl hw).trans (hm v)
  have hcol : ∀ v, (Finset.univ.filter fun w => W.dense w v ≠ 0).card ≤ m := fun v =>
    (Finset.card_le_card fun w hw => by simp only [Finset.mem_filter, Finset.mem_univ, true_and] at hw ⊢; exact .inr (.inl hw)).trans (hm v)
  refine ⟨(C142_laplacian hr hnn hrow hcol v w).1, ?_⟩
  have hd : 0 ≤ wdeg W.dense v := wdeg_nonneg hnn v
  have hw : 0 ≤ wsym W.dense v w := wsym_nonneg hnn v w
  unfold combLap
  rw [Matrix.of_apply, abs_le]
  split <;> constructor <;> linarith

theorem lap_stored (hr : Rounds fl u) (hm : ∀ v, (Finset.univ.filter fun w => W.dense v w ≠ 0 ∨ W.dense w v ≠ 0 ∨ v = w).card ≤ m) (v : Fin n) :
    (Finset.univ.filter fun w => combLapFl fl W v w ≠ 0).card ≤ m := by
  refine (Finset.card_le_card fun w hw => ?_).trans (hm v)
  simp only [Finset.mem_filter, Finset.mem_univ, true_and] at hw ⊢
  by_contra hc
  push Not at hc
  apply hw
  unfold combLapFl symFl
  rw [Matrix.of_apply, if_neg hc.2.2, hc.1, hc.2.1]
  simp [fl_zero hr]

theorem quad_bound (hnn : NonnegW W.dense) (x : Fin n → ℝ) :
    ∑ v, |x v| * ∑ w, ((if v = w then wdeg W.dense v else 0) + wsym W.dense v w) * |x w| ≤ 2 * ∑ v, wdeg W.dense v * x v ^ 2 := by
  have e1 : ∀ v, |x v| * ∑ w, ((if v = w then wdeg W.dense v else 0) + wsym W.dense v w) * |x w| = wdeg W.dense v * x v ^ 2 + ∑ w, wsym W.dense v w * (|x v| * |x w|) := fun v => by
    simp only [add_mul, Finset.sum_add_distrib, ite_mul, zero_mul, Finset.sum_ite_eq, Finset.mem_univ, if_true, mul_add, Finset.mul_sum]
    congr 1
    · rw [← sq_abs (x v)]; ring
    · exact Finset.sum_congr rfl fun w _ => by ring
  have e2 : ∑ v, ∑ w, wsym W.dense v w * (|x v| * |x w|) ≤ ∑ v, ∑ w, wsym W.dense v w * ((x v ^ 2 + x w ^ 2) / 2) := by
    refine Finset.sum_le_sum fun v _ => Finset.sum_le_sum fun w _ => mul_le_mul_of_nonneg_left ?_ (wsym_nonneg hnn v w)
    have := sq_nonneg (|x v| - |x w|)
    rw [← sq_abs (x v), ← sq_abs (x w)]
    nlinarith
  have e3 : ∀ v, ∑ w, wsym W.dense v w = wdeg W.dense v := fun v => by
    exact sum_wsym W.dense v
  have e4 : ∑ v, ∑ w, wsym W.dense v w * ((x v ^ 2 + x w ^ 2) / 2) = ∑ v, wdeg W.dense v * x v ^ 2 := by
    have a1 : ∑ v, ∑ w, wsym W.dense v w * ((x v ^ 2 + x w ^ 2) / 2) = (∑ v, ∑ w, wsym W.dense v w * x v ^ 2) / 2 + (∑ v, ∑ w, wsym W.dense v w * x w ^ 2) / 2 := by
      simp only [Finset.sum_div, ← Finset.sum_add_distrib]
      exact Finset.sum_congr rfl fun v _ => Finset.sum_congr rfl fun w _ => by ring
    have a2 : ∑ v, ∑ w, wsym W.dense v w * x w ^ 2 = ∑ v, ∑ w, wsym W.dense v w * x v ^ 2 := by
      rw [Finset.sum_comm]
      exact Finset.sum_congr rfl fun v _ => Finset.sum_congr rfl fun w _ => by rw [wsym_comm]
    rw [a1, a2]
    simp only [← Finset.sum_mul, e3]
    ring
  simp only [e1, Finset.sum_add_distrib]
  linarith

end

/-! ### the values of the differential operator -/

section

variable {u : ℝ} {fl : ℝ → ℝ} {W : Sp n n ℝ} {m : ℕ}

theorem diff_dense (W : Sp n n ℝ) (lt : LapType) (es : List (Fin n × Fin n × ℝ)) (a : Fin n) (k : Fin es.length) :
    (diffMatrixFl fl W lt es).dense a k = (if (es.get k).1 = a then (diffValuesFl fl W lt (es.get k)).1 else 0)
      + (if (es.get k).2.1 = a then (diffValuesFl fl W lt (es.get k)).2 else 0) := by
  unfold diffMatrixFl
  rw [Sp.dense_eliminateZeros, Sp.dense_sumDuplicates, Sp.dense_append]
  congr 1
  · exact dense_map_finRange (fun k => (es.get k).1) (fun k => (diffValuesFl fl W lt (es.get k)).1) a k
  · exact dense_map_finRange (fun k => (es.get k).2.1) (fun k => (diffValuesFl fl W lt (es.get k)).2) a k

/-- division by a rounded number -/
theorem div_near (hr : Rounds fl u) (hu : u ≤ 1 / 2) {k : ℕ} {xh x s c : ℝ} (h : Near u k xh x s) (hc : 0 < c) : Near u (k + 2) (xh / fl c) (x / c) (s / c) := by
  have h1 := hr.err c
  rw [abs_of_pos hc] at h1
  obtain ⟨h2, h3⟩ := abs_le.1 h1
  have hp : 0 < fl c := by nlinarith [hr.nonneg]
  have hu0 := hr.nonneg
  have h4 : Near u 2 (c / fl c) 1 1 := by
    refine ⟨?_, by simp⟩
    rw [mul_one, abs_le]
    constructor
    · rw [le_sub_iff_add_le, le_div_iff₀ hp]
      nlinarith [mul_nonneg hu0 hc.le, mul_nonneg (mul_nonneg hu0 hu0) hc.le, mul_nonneg (mul_nonneg (mul_nonneg hu0 hu0) hu0) hc.le]
    · rw [sub_le_iff_le_add, div_le_iff₀ hp]
      nlinarith [mul_nonneg hu0 hc.le, mul_nonneg (mul_nonneg hu0 hu0) hc.le, mul_nonneg (mul_nonneg (mul_nonneg hu0 hu0) hu0) hc.le]
  have h5 := (h.div hc).mul hu0 h4
  rw [mul_one, mul_one] at h5
  rwa [show xh / c * (c / fl c) = xh / fl c by field_simp] at h5

/-- square root of a rounded number -/
theorem sqrt_round (hr : Rounds fl u) (hu : u ≤ 1 / 2) {x : ℝ} (hx : 0 < x) : Near u 1 (√(fl x)) (√x) (√x) := by
  have h1 := hr.err x
  rw [abs_of_pos hx] at h1
  obtain ⟨h2, h3⟩ := abs_le.1 h1
  have hp : 0 < fl x := by nlinarith [hr.nonneg]
  have hs := Real.sqrt_pos.2 hx
  have hsp := Real.sqrt_pos.2 hp
  refine ⟨?_, by rw [abs_of_pos hs]⟩
  have e : √(fl x) - √x = (fl x - x) / (√(fl x) + √x) := by
    rw [eq_div_iff (by positivity)]
    nlinarith [Real.sq_sqrt hp.le, Real.sq_sqrt hx.le]
  rw [e, abs_div, abs_of_pos (show 0 < √(fl x) + √x by positivity), div_le_iff₀ (by positivity), pow_one]
  refine h1.trans ?_
  have := Real.sq_sqrt hx.le
  have := hr.nonneg
  nlinarith [mul_nonneg this (mul_pos hs hsp).le]

/-- what the two values of an edge are: exact up to the relative error of `m + 8` operations -/
theorem values_near (hr : Rounds fl u) (hnn : NonnegW W.dense) (hrow : ∀ v, (Finset.univ.filter fun w => W.dense v w ≠ 0).card ≤ m)
    (hcol : ∀ v, (Finset.univ.filter fun w => W.dense w v ≠ 0).card ≤ m) (hsmall : (1 + u) ^ (m + 3) - 1 ≤ 1 / 2) (lt : LapType)
    {i j : Fin n} {w : ℝ} (hw : W.dense i j = w) (hw0 : w ≠ 0) :
    Near u (m + 8) (diffValuesFl fl W lt (i, j, w)).1 (diffValues W lt (i, j, w)).1 |(diffValues W lt (i, j, w)).1| ∧
    Near u (m + 8) (diffValuesFl fl W lt (i, j, w)).2 (diffValues W lt (i, j, w)).2 |(diffValues W lt (i, j, w)).2| := by
  have hu0 := hr.nonneg
  have hu : u ≤ 1 / 2 := by
    have := one_add_mul_le_pow (show (-2 : ℝ) ≤ u by linarith) (m + 3)
    push_cast at this
    have h2 : 0 ≤ (m : ℝ) * u := by positivity
    linarith
  have hwp : 0 < w := lt_of_le_of_ne (hw ▸ hnn i j) (Ne.symm hw0)
  have hd : ∀ v, v = i ∨ v = j → 0 < wdeg W.dense v := fun v hv => by
    rw [← sum_wsym]
    have h2 : ∀ a, wsym W.dense v a ≤ ∑ b, wsym W.dense v b := fun a =>
      Finset.single_le_sum (f := fun b => wsym W.dense v b) (fun b _ => wsym_nonneg hnn v b) (Finset.mem_univ a)
    have h3 : 0 < wsym W.dense i j := by
      unfold wsym
      have := hnn j i
      rw [hw]
      linarith
    rcases hv with rfl | rfl
    · exact h3.trans_le (h2 j)
    · exact (by rwa [wsym_comm] : 0 < wsym W.dense _ i).trans_le (h2 i)
  have key : ∀ {ah a : ℝ}, Near u (m + 5) ah a |a| → Near u (m + 8) (if isDirected W then fl (ah / fl (√2)) else ah) (if isDirected W then a / √2 else a)
      |if isDirected W then a / √2 else a| := fun {ah a} h => by
    have h2 : (0 : ℝ) < √2 := Real.sqrt_pos.2 (by norm_num)
    split
    · rw [abs_div, abs_of_pos h2]
      exact (div_near hr hu h h2).round hr
    · exact h.mono hu0 (by omega) le_rfl
  have hdiv : ∀ v, v = i ∨ v = j → Near u (m + 5) (fl (√(fl (w / dwFl fl W v)))) (√(w / dw W v)) |√(w / dw W v)| := fun v hv => by
    have h1 := (dw_near hr hnn hrow hcol v).1
    obtain ⟨h2, h3⟩ := RoundedNormalized.inv_sqrt_near (hd v hv) h1 hsmall
    have h4 : Near u (m + 3) (1 / √(dwFl fl W v)) (1 / √(wdeg W.dense v)) (1 / √(wdeg W.dense v)) := ⟨h3, by rw [abs_of_nonneg (by positivity)]⟩
    have h5 : Near u 0 (√w) (√w) (√w) := by
      have := Near.refl (u := u) (√w)
      rwa [abs_of_nonneg (Real.sqrt_nonneg _)] at this
    have h6 := h5.mul hu0 h4
    have h7 : Near u 1 (√(fl (w / dwFl fl W v)) / √(w / dwFl fl W v)) 1 1 := by
      have hq : 0 < w / dwFl fl W v := div_pos hwp h2
      have := (sqrt_round hr hu hq).div (Real.sqrt_pos.2 hq)
      rwa [div_self (Real.sqrt_pos.2 hq).ne'] at this
    have h8 := (h6.mul hu0 h7).round hr
    have e1 : √w * (1 / √(dwFl fl W v)) * (√(fl (w / dwFl fl W v)) / √(w / dwFl fl W v)) = √(fl (w / dwFl fl W v)) := by
      have hq : 0 < √(w / dwFl fl W v) := Real.sqrt_pos.2 (div_pos hwp h2)
      have e2 : √w * (1 / √(dwFl fl W v)) = √(w / dwFl fl W v) := by rw [Real.sqrt_div hwp.le]; ring
      rw [e2]
      field_simp
    have e3 : √w * (1 / √(wdeg W.dense v)) * 1 = √(w / dw W v) := by rw [dw_eq, Real.sqrt_div hwp.le]; ring
    rw [e1, e3] at h8
    rw [abs_of_nonneg (Real.sqrt_nonneg _)]
    exact h8.mono hu0 (by omega) le_rfl
  have hneg : ∀ {k : ℕ} {ah a : ℝ}, Near u k ah a |a| → Near u k (-ah) (-a) |(-a)| := fun h => by rw [abs_neg]; exact h.neg
  have hsq : Near u (m + 5) (fl (√w)) (√w) |√w| := ((Near.refl (u := u) (√w)).round hr).mono hu0 (by omega) le_rfl
  unfold diffValuesFl diffValues
  cases lt with
  | combinatorial =>
    have h1 := key (hneg hsq)
    have h2 := key (hneg (hneg hsq))
    dsimp only
    split <;> rename_i hdir <;> simp only [hdir, if_true, if_false] at h1 h2 <;> exact ⟨h1, h2⟩
  | normalized =>
    have h1 := key (hneg (hdiv i (.inl rfl)))
    have h2 := key (hdiv j (.inr rfl))
    dsimp only
    split <;> rename_i hdir <;> simp only [hdir, if_true, if_false] at h1 h2 <;> exact ⟨h1, h2⟩
  | other s =>
    have h0 : Near u (m + 5) 0 0 |0| := ⟨by simp, by simp⟩
    have h1 := key h0
    dsimp only
    split <;> rename_i hdir <;> simp only [hdir, if_true, if_false] at h1 <;> exact ⟨h1, h1⟩

end

/-! ### roundings that are odd functions -/

theorem nearest_zero (p : ℕ) : nearest p 0 = 0 := by simp [nearest]

theorem nearest_form {p : ℕ} (hp : 0 < p) {x : ℝ} (hx : 0 < x) : ∃ z e : ℤ, nearest p x = z * (2 : ℝ) ^ e ∧ (2 : ℝ) ^ ((p : ℤ) - 1) ≤ |(z : ℝ)| ∧ |(z : ℝ)| < (2 : ℝ) ^ (p : ℤ) ∧ 0 < z := by
  have h2 := Int.zpow_log_le_self (b := 2) (r := |x|) (by norm_num) (abs_pos.2 hx.ne')
  have h3 := Int.lt_zpow_succ_log_self (b := 2) (by norm_num) |x|
  push_cast at h2 h3
  unfold nearest
  set k := Int.log 2 |x|
  rw [abs_of_pos hx] at h2 h3
  have hk : (0 : ℝ) < 2 ^ ((p : ℤ) - 1 - k) := by positivity
  have a1 : (2 : ℝ) ^ ((p : ℤ) - 1) ≤ x * 2 ^ ((p : ℤ) - 1 - k) := by
    have := mul_le_mul_of_nonneg_right h2 hk.le
    rwa [← zpow_add₀ (by norm_num), show k + ((p : ℤ) - 1 - k) = (p : ℤ) - 1 by ring] at this
  have a2 : x * 2 ^ ((p : ℤ) - 1 - k) < (2 : ℝ) ^ (p : ℤ) := by
    have := mul_lt_mul_of_pos_right h3 hk
    rwa [← zpow_add₀ (by norm_num), show k + 1 + ((p : ℤ) - 1 - k) = (p : ℤ) by ring] at this
  set y := x * (2 : ℝ) ^ ((p : ℤ) - 1 - k)
  have e1 : ((2 ^ (p - 1) : ℤ) : ℝ) = (2 : ℝ) ^ ((p : ℤ) - 1) := by
    rw [show (p : ℤ) - 1 = ((p - 1 : ℕ) : ℤ) by omega, zpow_natCast]
    push_cast
    rfl
  have e2 : ((2 ^ p : ℤ) : ℝ) = (2 : ℝ) ^ (p : ℤ) := by
    rw [zpow_natCast]
    push_cast
    rfl
  have b1 : (2 ^ (p - 1) : ℤ) ≤ round y := by
    rw [round_eq, Int.le_floor, e1]
    linarith
  have b2 : round y ≤ 2 ^ p := by
    rw [round_eq, ← Int.lt_add_one_iff, Int.floor_lt]
    push_cast
    rw [zpow_natCast] at a2
    linarith
  have hpos : (0 : ℤ) < round y := lt_of_lt_of_le (by positivity) b1
  rcases b2.lt_or_eq with h | h
  · refine ⟨round y, _, rfl, ?_, ?_, hpos⟩
    · rw [← e1, ← Int.cast_abs, abs_of_pos hpos]
      exact_mod_cast b1
    · rw [← e2, ← Int.cast_abs, abs_of_pos hpos]
      exact_mod_cast h
  · refine ⟨2 ^ (p - 1), k - ((p : ℤ) - 1) + 1, ?_, ?_, ?_, by positivity⟩
    · rw [h, zpow_add_one₀ (by norm_num), e2, e1, zpow_sub_one₀ (a := (2 : ℝ)) (by norm_num)]
      ring
    · rw [e1]; exact le_abs_self _
    · rw [e1, abs_of_pos (by positivity)]
      exact zpow_lt_zpow_right₀ (by norm_num) (by omega)

theorem odd_neg (p : ℕ) (x : ℝ) : nearestOdd p (-x) = -nearestOdd p x := by
  unfold nearestOdd
  rcases lt_trichotomy x 0 with h | rfl | h
  · rw [if_pos (by linarith), if_neg (by linarith), neg_neg]
  · simp [nearest_zero]
  · rw [if_neg (by linarith), if_pos h.le, neg_neg]

theorem odd_num {p : ℕ} (hp : 0 < p) {m k : ℤ} (hm : 0 < m) (h1 : (2 : ℝ) ^ ((p : ℤ) - 1) ≤ |(m : ℝ)|) (h2 : |(m : ℝ)| < (2 : ℝ) ^ (p : ℤ)) :
    nearestOdd p (m * (2 : ℝ) ^ k) = m * (2 : ℝ) ^ k := by
  unfold nearestOdd
  rw [if_pos (by positivity)]
  exact RoundedNormalized.nearest_num hp h1 h2

theorem odd_twice {p : ℕ} (hp : 0 < p) (x : ℝ) : nearestOdd p (nearestOdd p x) = nearestOdd p x := by
  have key : ∀ x, 0 < x → nearestOdd p (nearestOdd p x) = nearestOdd p x := fun x hx => by
    obtain ⟨z, e, h0, h1, h2, h3⟩ := nearest_form hp hx
    have : nearestOdd p x = z * (2 : ℝ) ^ e := by unfold nearestOdd; rw [if_pos hx.le, h0]
    rw [this]
    exact odd_num hp h3 h1 h2
  rcases lt_trichotomy x 0 with h | rfl | h
  · have := key (-x) (by linarith)
    rw [odd_neg, odd_neg] at this
    linarith
  · have : nearestOdd p 0 = 0 := by simp [nearestOdd, nearest_zero]
    rw [this, this]
  · exact key x h

theorem odd_rounds (p : ℕ) : Rounds (nearestOdd p) ((2 : ℝ) ^ (-(p : ℤ))) := by
  obtain ⟨h, -⟩ := C142_nearest p
  refine ⟨h.nonneg, fun x => ?_, fun x => ?_⟩
  · unfold nearestOdd
    split
    · exact h.err x
    · have := h.err (-x)
      rwa [abs_neg, show nearest p (-x) - -x = -(-nearest p (-x) - x) by ring, abs_neg] at this
  · unfold nearestOdd
    by_cases hx : 0 ≤ x
    · rw [if_pos (by linarith), if_pos hx, h.half]
    · rw [if_neg (by linarith), if_neg hx, ← neg_div, h.half]
      ring

theorem odd_pow {p : ℕ} (hp : 0 < p) (k : ℤ) : nearestOdd p ((2 : ℝ) ^ k) = (2 : ℝ) ^ k := by
  have e : ((2 ^ (p - 1) : ℤ) : ℝ) = (2 : ℝ) ^ ((p : ℤ) - 1) := by
    rw [show (p : ℤ) - 1 = ((p - 1 : ℕ) : ℤ) by omega, zpow_natCast]
    push_cast
    rfl
  have h := odd_num hp (m := 2 ^ (p - 1)) (k := k - ((p : ℤ) - 1)) (by positivity) (by rw [e]; exact le_abs_self _)
    (by rw [e, abs_of_pos (by positivity)]; exact zpow_lt_zpow_right₀ (by norm_num) (by omega))
  rwa [e, ← zpow_add₀ (by norm_num), show (p : ℤ) - 1 + (k - ((p : ℤ) - 1)) = k by ring] at h

theorem odd_one {p : ℕ} (hp : 0 < p) : nearestOdd p 1 = 1 := by simpa using odd_pow hp 0

/-- `1 + 2 ^ -(p + 1)` is rounded to `1` -/
theorem odd_absorb {p : ℕ} (hp : 0 < p) : nearestOdd p (1 + (2 : ℝ) ^ (-((p : ℤ) + 1))) = 1 := by
  have h0 : (0 : ℝ) < 2 ^ (-((p : ℤ) + 1)) := by positivity
  have h1 : (2 : ℝ) ^ (-((p : ℤ) + 1)) < 1 := zpow_lt_one_of_neg₀ (by norm_num) (by omega)
  unfold nearestOdd
  rw [if_pos (by positivity)]
  have e : ((2 ^ (p - 1) : ℤ) : ℝ) = (2 : ℝ) ^ ((p : ℤ) - 1) := by
    rw [show (p : ℤ) - 1 = ((p - 1 : ℕ) : ℤ) by omega, zpow_natCast]
    push_cast
    rfl
  have hmul : (2 : ℝ) ^ ((p : ℤ) - 1) * (2 : ℝ) ^ (-((p : ℤ) - 1)) = 1 := by rw [← zpow_add₀ (by norm_num)]; simp
  rw [RoundedNormalized.nearest_eval (m := 2 ^ (p - 1)) (k := -((p : ℤ) - 1)), e, hmul]
  · rw [abs_of_pos (by positivity)]
    simp only [add_neg_cancel, zpow_zero]
    linarith
  · rw [abs_of_pos (by positivity), show (p : ℤ) + -((p : ℤ) - 1) = 1 by ring, zpow_one]
    linarith
  · rw [e, neg_neg, add_mul, one_mul, ← zpow_add₀ (by norm_num), add_sub_cancel_left, show -((p : ℤ) + 1) + ((p : ℤ) - 1) = -2 by ring]
    norm_num [abs_of_pos]

/-! ### constants and integers -/

/-- the stored entries of a column with opposite values at two vertices -/
theorem pair_list {a : Fin n → ℝ} {s t : Fin n} (hst : s ≠ t) (hs : a s ≠ 0) (ht : a t ≠ 0) (h0 : ∀ v, v ≠ s → v ≠ t → a v = 0) :
    ((List.finRange n).filter fun j => a j ≠ 0) = [s, t] ∨ ((List.finRange n).filter fun j => a j ≠ 0) = [t, s] := by
  set l := (List.finRange n).filter fun j => a j ≠ 0 with hl
  have hn : l.Nodup := (List.nodup_finRange n).filter _
  have hmem : ∀ v, v ∈ l ↔ v ∈ [s, t] := fun v => by
    simp only [hl, List.mem_filter, List.mem_finRange, true_and, decide_eq_true_eq, List.mem_cons, List.not_mem_nil, or_false]
    constructor
    · intro h
      by_contra hc
      push Not at hc
      exact h (h0 v hc.1 hc.2)
    · rintro (rfl | rfl) <;> assumption
  have hp : l.Perm [s, t] := (List.perm_ext_iff_of_nodup hn (by simp [hst])).2 hmem
  have hlen := hp.length_eq
  match l, hn, hmem, hlen with
  | [b, c], hn, hmem, _ =>
    have hbc : b ≠ c := by simpa using hn
    have hb := (hmem b).1 (by simp)
    have hc := (hmem c).1 (by simp)
    simp only [List.mem_cons, List.not_mem_nil, or_false] at hb hc
    rcases hb with rfl | rfl <;> rcases hc with rfl | rfl
    · exact absurd rfl hbc
    · exact .inl rfl
    · exact .inr rfl
    · exact absurd rfl hbc

theorem dot_opposite {fl : ℝ → ℝ} (h00 : fl 0 = 0) (hodd : ∀ x, fl (-x) = -fl x) (htw : ∀ x, fl (fl x) = fl x) {a : Fin n → ℝ} {s t : Fin n} {b : ℝ} (hst : s ≠ t) (hs : a s = -b) (ht : a t = b)
    (h0 : ∀ v, v ≠ s → v ≠ t → a v = 0) (c : ℝ) : dotFl fl a (fun _ => c) = 0 := by
  unfold dotFl
  by_cases hb : b = 0
  · have : (List.finRange n).filter (fun j => a j ≠ 0) = [] := by
      rw [List.filter_eq_nil_iff]
      intro v _
      simp only [decide_eq_true_eq, not_not]
      by_cases h1 : v = s
      · rw [h1, hs, hb, neg_zero]
      · by_cases h2 : v = t
        · rw [h2, ht, hb]
        · exact h0 v h1 h2
    rw [this]
    rfl
  · rcases pair_list hst (by rw [hs]; exact neg_ne_zero.2 hb) (by rw [ht]; exact hb) h0 with h | h <;> rw [h] <;>
      simp only [List.foldl_cons, List.foldl_nil, hs, ht, zero_add, neg_mul, hodd, htw] <;> simp [h00]

theorem dot_int {fl : ℝ → ℝ} {B : ℤ} (hfl : ∀ z : ℤ, |z| ≤ B → fl z = z) {a y : Fin n → ℝ} {A Y : Fin n → ℤ} (ha : ∀ i, a i = A i) (hy : ∀ i, y i = Y i) (hB : ∑ i, |A i * Y i| ≤ B) :
    dotFl fl a y = ((∑ i, A i * Y i : ℤ) : ℝ) := by
  have hl : ∀ (l : List (Fin n)) (acc : ℤ), |acc| + (l.map fun w => |A w * Y w|).sum ≤ B →
      l.foldl (fun acc j => fl (acc + fl (a j * y j))) (acc : ℝ) = ((acc + (l.map fun w => A w * Y w).sum : ℤ) : ℝ) := by
    intro l
    induction l with
    | nil => intro acc _; simp
    | cons w l ih =>
      intro acc hacc
      simp only [List.map_cons, List.sum_cons] at hacc ⊢
      have hpos : 0 ≤ (l.map fun w => |A w * Y w|).sum := List.sum_nonneg (by simp only [List.mem_map]; rintro _ ⟨a, -, rfl⟩; exact abs_nonneg _)
      have h1 : |A w * Y w| ≤ B := by linarith [abs_nonneg acc]
      have h2 : |acc + A w * Y w| ≤ |acc| + |A w * Y w| := abs_add_le _ _
      rw [List.foldl_cons, ha, hy, ← Int.cast_mul, hfl _ h1, ← Int.cast_add, hfl _ (by linarith), ih _ (by linarith)]
      push_cast
      ring
  have h4 : ((List.finRange n).map fun w => |A w * Y w|).sum = ∑ w, |A w * Y w| := (Fin.sum_univ_def _).symm
  have h3 := hl ((List.finRange n).filter fun j => a j ≠ 0) 0 (by
    refine le_trans ?_ hB
    have h5 := List.Sublist.sum_le_sum ((List.filter_sublist (p := fun j => a j ≠ 0) (l := List.finRange n)).map fun w => |A w * Y w|)
      (by simp only [List.mem_map]; rintro _ ⟨a, -, rfl⟩; exact abs_nonneg _)
    rw [h4] at h5
    simpa using h5)
  simp only [Int.cast_zero, zero_add] at h3
  unfold dotFl
  rw [h3]
  have h6 := sum_filter_list (fun j => a j ≠ 0) fun j => ((A j * Y j : ℤ) : ℝ)
  have h7 : ((((List.finRange n).filter fun j => a j ≠ 0).map fun w => A w * Y w).sum : ℝ) = (((List.finRange n).filter fun j => a j ≠ 0).map fun w => ((A w * Y w : ℤ) : ℝ)).sum := by
    push_cast
    rw [List.map_map]
    congr 1
    refine List.map_congr_left fun w _ => ?_
    simp
  rw [h7, h6, Finset.sum_filter, Int.cast_sum]
  refine Finset.sum_congr rfl fun w _ => ?_
  split
  · rfl
  · rename_i h8
    rw [not_not, ha, Int.cast_eq_zero] at h8
    simp [h8]

theorem any_int {fl : ℝ → ℝ} {B : ℤ} (hfl : ∀ z : ℤ, |z| ≤ B → fl z = z) {ι : Type} [Fintype ι] [DecidableEq ι] {a y : ι → ℝ} {A Y : ι → ℤ} (ha : ∀ i, a i = A i) (hy : ∀ i, y i = Y i)
    (hB : ∑ i, |A i * Y i| ≤ B) {s : Finset ι} {r : ℝ} (h : DotAny fl a y s r) : r = ((∑ i ∈ s, A i * Y i : ℤ) : ℝ) := by
  have hs : ∀ s : Finset ι, |∑ i ∈ s, A i * Y i| ≤ B := fun s =>
    (Finset.abs_sum_le_sum_abs _ _).trans ((Finset.sum_le_sum_of_subset_of_nonneg (Finset.subset_univ s) fun i _ _ => abs_nonneg _).trans hB)
  have hp : ∀ i, |A i * Y i| ≤ B := fun i => by simpa using hs {i}
  induction h with
  | product i => rw [ha, hy, ← Int.cast_mul, hfl _ (hp i), Finset.sum_singleton]
  | register i => rw [zero_add, ha, hy, ← Int.cast_mul, hfl _ (hp i), hfl _ (hp i), Finset.sum_singleton]
  | fma i hi _ ih =>
    rename_i s _ _
    rw [ih, ha, hy, ← Int.cast_mul, ← Int.cast_add, add_comm, ← Finset.sum_insert (f := fun i => A i * Y i) hi, hfl _ (hs _)]
  | add hd _ _ ih ih' =>
    rw [ih, ih', ← Int.cast_add, ← Finset.sum_union hd, hfl _ (hs _)]

/-- a path of three vertices with the weights `1` and `w` -/
def path3 (w : ℝ) : Matrix (Fin 3) (Fin 3) ℝ := !![0, 1, 0; 1, 0, w; 0, w, 0]

theorem path3_nonneg {w : ℝ} (hw : 0 ≤ w) : NonnegW (path3 w) := by
  intro i j
  fin_cases i <;> fin_cases j <;> simp [path3, hw]

theorem path3_undirected (w : ℝ) : Undirected (path3 w) := by
  intro i j
  fin_cases i <;> fin_cases j <;> rfl

theorem path3_connected {w : ℝ} (hw : w ≠ 0) : Connected (path3 w) := by
  have h10 : Linked (path3 w) 1 0 := .single (.inl (by simp [path3]))
  have h12 : Linked (path3 w) 1 2 := .single (.inl (by simp [path3, hw]))
  have h : ∀ i, Linked (path3 w) 1 i := by
    intro i
    fin_cases i
    · exact h10
    · exact .refl
    · exact h12
  exact fun i j => (Linked.symm (h i)).trans (h j)

theorem list3 : List.finRange 3 = [0, 1, 2] := by decide

section

variable {p : ℕ} (hp : 0 < p) {W : Sp 3 3 ℝ} (hW : W.dense = path3 ((2 : ℝ) ^ (-((p : ℤ) + 1))))
include hp hW

theorem path3_degrees : dwFl (nearestOdd p) W 0 = 1 ∧ dwFl (nearestOdd p) W 1 = 1 ∧ dwFl (nearestOdd p) W 2 = (2 : ℝ) ^ (-((p : ℤ) + 1)) := by
  have hu : isDirected W = false := (isDirected_eq_false_iff W).2 (by rw [hW]; intro i j; fin_cases i <;> fin_cases j <;> rfl)
  have h1 := odd_one hp
  have h2 := odd_pow hp (-((p : ℤ) + 1))
  have h3 := odd_absorb hp
  have hne : (2 : ℝ) ^ (-((p : ℤ) + 1)) ≠ 0 := by positivity
  unfold dwFl
  rw [hu, hW]
  set w := (2 : ℝ) ^ (-((p : ℤ) + 1))
  refine ⟨?_, ?_, ?_⟩ <;> simp [dotFl, list3, path3, h1, h2, h3, hne]

theorem path3_lap : combLapFl (nearestOdd p) W = !![1, -1, 0; -1, 1, -((2 : ℝ) ^ (-((p : ℤ) + 1))); 0, -((2 : ℝ) ^ (-((p : ℤ) + 1))), (2 : ℝ) ^ (-((p : ℤ) + 1))] := by
  have hu : isDirected W = false := (isDirected_eq_false_iff W).2 (by rw [hW]; intro i j; fin_cases i <;> fin_cases j <;> rfl)
  obtain ⟨d0, d1, d2⟩ := path3_degrees hp hW
  have h0 : nearestOdd p 0 = 0 := by simp [nearestOdd, nearest_zero]
  have h1 := odd_one hp
  have h2 := odd_pow hp (-((p : ℤ) + 1))
  set w := (2 : ℝ) ^ (-((p : ℤ) + 1))
  ext i j
  unfold combLapFl symFl
  rw [Matrix.of_apply, hu, hW]
  fin_cases i <;> fin_cases j <;> simp [path3, d0, d1, d2, h0, h1, h2, odd_neg]

theorem path3_energy {r : ℝ} (h : EnergyFl (nearestOdd p) (combLapFl (nearestOdd p) W) (fun _ => 1) r) : r = -(2 : ℝ) ^ (-((p : ℤ) + 1)) := by
  rw [path3_lap hp hW] at h
  have h0 : nearestOdd p 0 = 0 := by simp [nearestOdd, nearest_zero]
  have h1 := odd_one hp
  have h2 := odd_pow hp (-((p : ℤ) + 1))
  have hne : (2 : ℝ) ^ (-((p : ℤ) + 1)) ≠ 0 := by positivity
  unfold EnergyFl at h
  set w := (2 : ℝ) ^ (-((p : ℤ) + 1))
  have hdot : (fun v => dotFl (nearestOdd p) ((!![1, -1, 0; -1, 1, -w; 0, -w, w] : Matrix (Fin 3) (Fin 3) ℝ) v) fun _ => 1) = ![0, -w, 0] := by
    funext v
    fin_cases v <;> simp [dotFl, list3, h0, h1, h2, odd_neg, hne]
  rw [hdot] at h
  have key : ∀ {s : Finset (Fin 3)} {r : ℝ}, DotAny (nearestOdd p) (fun _ => 1) ![0, -w, 0] s r → r = if 1 ∈ s then -w else 0 := by
    intro s r h
    have hv : ∀ i : Fin 3, (![0, -w, 0] : Fin 3 → ℝ) i = if 1 = i then -w else 0 := fun i => by fin_cases i <;> simp
    have hf : ∀ P : Prop, ∀ [Decidable P], nearestOdd p (if P then -w else 0) = if P then -w else 0 := fun P _ => by split <;> simp [h0, h2, odd_neg]
    induction h with
    | product i => simp only [one_mul, hv, hf, Finset.mem_singleton]
    | register i => simp only [one_mul, zero_add, hv, hf, Finset.mem_singleton]
    | fma i hi _ ih =>
      rename_i s _ _
      rw [ih, one_mul, hv]
      by_cases hs : (1 : Fin 3) ∈ s
      · have : (1 : Fin 3) ≠ i := fun h => hi (h ▸ hs)
        simp [hs, this, h2, odd_neg]
      · by_cases h1 : (1 : Fin 3) = i
        · simp [hs, h1.symm, h2, odd_neg]
        · simp [hs, h1, h0]
    | add hd _ _ ih ih' =>
      rename_i s t _ _ _ _
      rw [ih, ih']
      by_cases hs : (1 : Fin 3) ∈ s
      · have ht : (1 : Fin 3) ∉ t := Finset.disjoint_left.1 hd hs
        simp [hs, ht, h2, odd_neg]
      · by_cases ht : (1 : Fin 3) ∈ t
        · simp [hs, ht, h2, odd_neg]
        · simp [hs, ht, h0]
  simpa using key h

end

end RoundedEnergy

open RoundedEnergy

section

variable {u : ℝ} {fl : ℝ → ℝ} {W : Sp n n ℝ} {m : ℕ}

/-- **C148** The energy that `dirichlet_energy` computes, whatever the order in which the terms are added: exact up to the relative error of `2 m + n + 6` operations on
`2 sum_v d_v x_v ^ 2`, where `m` bounds the number of neighbors, the vertex itself included.  In particular it is never below minus this quantity. -/
theorem C148_energy (hr : Rounds fl u) (hnn : NonnegW W.dense) (hm : ∀ v, (Finset.univ.filter fun w => W.dense v w ≠ 0 ∨ W.dense w v ≠ 0 ∨ v = w).card ≤ m)
    {x : Fin n → ℝ} {r : ℝ} (h : EnergyFl fl (combLapFl fl W) x r) :
    |r - dirichlet W.dense x| ≤ roundings u (2 * m + n + 6) * (2 * ∑ v, wdeg W.dense v * x v ^ 2) ∧
    -(roundings u (2 * m + n + 6) * (2 * ∑ v, wdeg W.dense v * x v ^ 2)) ≤ r := by
  have h1 : ∀ v, Near u (2 * m + 5) (x v * dotFl fl (combLapFl fl W v) x) (x v * ∑ w, combLap W.dense v w * x w)
      (|x v| * ∑ w, ((if v = w then wdeg W.dense v else 0) + wsym W.dense v w) * |x w|) := fun v =>
    ((Near.refl (u := u) (x v)).mul hr.nonneg (dot_near hr (fun w => lap_near hr hnn hm v w) (lap_stored hr hm v) x)).mono hr.nonneg (by omega) le_rfl
  have h2 := (dot_any hr h h1).2
  rw [Finset.card_univ, Fintype.card_fin] at h2
  have e : ∑ v, x v * ∑ w, combLap W.dense v w * x w = dirichlet W.dense x := by
    have := combLap_quad W.dense x
    simpa only [dotProduct, Matrix.mulVec] using this
  rw [e] at h2
  have h3 := (h2.mono hr.nonneg (m' := 2 * m + n + 6) (by omega) (quad_bound hnn x)).1
  refine ⟨h3, ?_⟩
  have h4 : 0 ≤ dirichlet W.dense x :=
    mul_nonneg (by norm_num) (Finset.sum_nonneg fun i _ => Finset.sum_nonneg fun j _ => mul_nonneg (hnn i j) (sq_nonneg _))
  have := (abs_le.1 h3).1
  unfold roundings at this ⊢
  linarith

/-- **C148** With exact arithmetic, these functions are the `dirichlet_energy`, differential operator, `grad` and `div` of the other theorems. -/
theorem C148_exact (g : Graph n ℝ) (L : Matrix (Fin n) (Fin n) ℝ) (x : Fin n → ℝ) (r : ℝ) (h : EnergyFl (fun x => x) L x r) {q : ℕ} (D : Sp n q ℝ) (y : Fin q → ℝ) :
    r = dirichletEnergy L x ∧ g.diffOpFl (fun x => x) = g.diffOp ∧ gradFl (fun x => x) D x = grad D x ∧ divFl (fun x => x) D y = div D y := by
  refine ⟨?_, ?_, ?_, ?_⟩
  · rw [dotAny_exact h]
    simp only [dotFl_exact, dirichletEnergy, dotProduct, Matrix.mulVec]
  · have hv : ∀ lt, diffMatrixFl (fun x => x) g.W lt = diffMatrix g.W lt := fun lt => by
      have h1 : diffValuesFl (fun x => x) g.W lt = diffValues g.W lt := by
        funext e
        have h2 : ∀ i, dwFl (fun x => x) g.W i = dw g.W i := fun i => by
          unfold dwFl dw
          simp only [dotFl_exact, mul_one]
        unfold diffValuesFl diffValues
        simp only [h2]
        cases lt <;> rfl
      unfold diffMatrixFl diffMatrix
      rw [h1]
    unfold Graph.diffOpFl Graph.diffOp
    simp only [hv]
    cases g.getEdgeList with
    | error e => rfl
    | ok es => cases g.lapType <;> rfl
  · funext k
    simp only [gradFl, dotFl_exact, grad, Matrix.mulVec, dotProduct, Matrix.transpose_apply]
  · funext v
    simp only [divFl, dotFl_exact, div, Matrix.mulVec, dotProduct]

open Classical in
/-- **C148** The gradient that `grad` computes, on the edge `k` from `s` to `t` with weight `w`: exact up to the relative error of `m + 11` operations on the sum of the absolute values
of its two terms, where `m` bounds the number of in-neighbors and of out-neighbors. -/
theorem C148_grad {g : Graph n ℝ} (hg : g.Built) (hr : Rounds fl u) (hnn : NonnegW g.W.dense) (hrow : ∀ v, (Finset.univ.filter fun w => g.W.dense v w ≠ 0).card ≤ m)
    (hcol : ∀ v, (Finset.univ.filter fun w => g.W.dense w v ≠ 0).card ≤ m) (hsmall : roundings u (m + 3) ≤ 1 / 2) :
    ∃ es, g.getEdgeList = .ok es ∧ ∃ D : Sp n es.length ℝ, g.diffOpFl fl = .ok ⟨es.length, D⟩ ∧
      ∀ (x : Fin n → ℝ) (k : Fin es.length),
        let s := (es.get k).1
        let t := (es.get k).2.1
        let w := (es.get k).2.2
        let c := if Undirected g.W.dense then 1 else √2
        (g.lapType = .combinatorial → |gradFl fl D x k - √w * (x t - x s) / c| ≤ roundings u (m + 11) * (√w * (|x t| + |x s|) / c)) ∧
        (g.lapType = .normalized → |gradFl fl D x k - √w * (x t / √(wdeg g.W.dense t) - x s / √(wdeg g.W.dense s)) / c| ≤
          roundings u (m + 11) * (√w * (|x t| / √(wdeg g.W.dense t) + |x s| / √(wdeg g.W.dense s)) / c)) := by
  obtain ⟨es, h1, h2, -, h4⟩ := C04_edge_list g hg
  have hlt := hg.lapType_known
  refine ⟨es, h1, diffMatrixFl fl g.W g.lapType es, ?_, ?_⟩
  · unfold Graph.diffOpFl
    rw [h1]
    rcases hlt with h | h <;> rw [h]
  · intro x k
    have hmem : es.get k ∈ es := List.get_mem _ _
    have hc : dirScale g.W = if Undirected g.W.dense then 1 else Real.sqrt 2 := by
      unfold dirScale
      by_cases hd : isDirected g.W = true
      · rw [if_pos hd, if_neg ((C03_is_directed_iff _).1 hd)]
      · rw [if_neg hd, if_pos (by by_contra h; exact hd ((C03_is_directed_iff _).2 h))]
    have hc0 : 0 < dirScale g.W := by
      unfold dirScale
      split
      · exact Real.sqrt_pos.2 (by norm_num)
      · norm_num
    have hd := diff_dense (fl := fl) g.W g.lapType es
    have hval : ∀ {a b}, diffValues g.W g.lapType (es.get k) = (a, b) →
        |gradFl fl (diffMatrixFl fl g.W g.lapType es) x k - (a * x (es.get k).1 + b * x (es.get k).2.1)| ≤ roundings u (m + 11) * (|a| * |x (es.get k).1| + |b| * |x (es.get k).2.1|) := by
      intro a b hab
      obtain ⟨hn1, hn2⟩ := values_near (W := g.W) hr hnn hrow hcol hsmall g.lapType (i := (es.get k).1) (j := (es.get k).2.1) (w := (es.get k).2.2)
        (((h4 _ _ _).1 hmem).1) (((h4 _ _ _).1 hmem).2.1)
      simp only [Prod.mk.eta] at hn1 hn2
      rw [hab] at hn1 hn2
      have hz : ∀ (P : Prop) [Decidable P] {k : ℕ} {ah a : ℝ}, Near u k ah a |a| → Near u k (if P then ah else 0) (if P then a else 0) (if P then |a| else 0) := by
        intro P _ k ah a h
        split
        · exact h
        · exact ⟨by simp, by simp⟩
      have hnear : ∀ v, Near u (m + 8) ((diffMatrixFl fl g.W g.lapType es).dense v k) ((if (es.get k).1 = v then a else 0) + (if (es.get k).2.1 = v then b else 0))
          ((if (es.get k).1 = v then |a| else 0) + (if (es.get k).2.1 = v then |b| else 0)) := fun v => by
        rw [hd]
        exact (hz _ hn1).add (hz _ hn2)
      have hcard : (Finset.univ.filter fun v => (diffMatrixFl fl g.W g.lapType es).dense v k ≠ 0).card ≤ 2 := by
        refine (Finset.card_le_card (t := {(es.get k).1, (es.get k).2.1}) fun v hv => ?_).trans Finset.card_le_two
        simp only [Finset.mem_filter, Finset.mem_univ, true_and, hd] at hv
        simp only [Finset.mem_insert, Finset.mem_singleton]
        by_contra hne
        push Not at hne
        rw [if_neg (Ne.symm hne.1), if_neg (Ne.symm hne.2)] at hv
        simp at hv
      have h5 := (dot_near hr hnear hcard x).1
      simp only [add_mul, ite_mul, zero_mul, Finset.sum_add_distrib, Finset.sum_ite_eq, Finset.mem_univ, if_true] at h5
      exact h5
    dsimp only
    rw [← hc]
    have hw : 0 ≤ (es.get k).2.2 := by
      have := (h4 _ _ _).1 hmem
      rw [← this.1]; exact hnn _ _
    have hv := hval (diffValues_eq g.W g.lapType hlt (es.get k).1 (es.get k).2.1 hw)
    have hvn : ∀ i, 0 ≤ vscale g.W.dense g.lapType i := fun i => by
      rcases hlt with h | h <;> rw [h]
      · simp [vscale]
      · simp only [vscale, nscale]; split <;> positivity
    rw [abs_div, abs_neg, abs_div, abs_mul, abs_mul, abs_of_nonneg (hvn _), abs_of_nonneg (hvn _), abs_of_pos hc0, abs_of_nonneg (Real.sqrt_nonneg _)] at hv
    refine ⟨fun h => ?_, fun h => ?_⟩
    · rw [h] at hv
      simp only [vscale] at hv
      rw [h]
      convert hv using 2 <;> ring
    · have hv' : ∀ i, vscale g.W.dense .normalized i = 1 / Real.sqrt (wdeg g.W.dense i) := by
        intro i
        simp only [vscale, nscale]
        split
        · rename_i h0; rw [h0]; simp
        · rfl
      rw [h, hv', hv'] at hv
      rw [h]
      convert hv using 2 <;> ring

/-- **C148** The divergence that `div` computes on a graph without self-loops: exact up to the relative error of `m + q + 9` operations on the sum of the absolute values of its terms,
where `m` bounds the number of in-neighbors and of out-neighbors and `q` the number of edges at a vertex. -/
theorem C148_div {g : Graph n ℝ} (hg : g.Built) (hr : Rounds fl u) (hnn : NonnegW g.W.dense) (hloop : ∀ i, g.W.dense i i = 0)
    (hrow : ∀ v, (Finset.univ.filter fun w => g.W.dense v w ≠ 0).card ≤ m) (hcol : ∀ v, (Finset.univ.filter fun w => g.W.dense w v ≠ 0).card ≤ m)
    (hsmall : roundings u (m + 3) ≤ 1 / 2) {e : ℕ} {D Dh : Sp n e ℝ} (hD : g.diffOp = .ok ⟨e, D⟩) (hDh : g.diffOpFl fl = .ok ⟨e, Dh⟩) (y : Fin e → ℝ) (v : Fin n) {q : ℕ}
    (hq : (Finset.univ.filter fun k => D.dense v k ≠ 0).card ≤ q) :
    |divFl fl Dh y v - div D y v| ≤ roundings u (m + q + 9) * ∑ k, |D.dense v k| * |y k| := by
  obtain ⟨es, h1, h2, -, h4⟩ := C04_edge_list g hg
  have hlt := hg.lapType_known
  have hD' : g.diffOp = .ok ⟨es.length, diffMatrix g.W g.lapType es⟩ := by
    unfold Graph.diffOp
    rw [h1]
    rcases hlt with h | h <;> rw [h]
  have hDh' : g.diffOpFl fl = .ok ⟨es.length, diffMatrixFl fl g.W g.lapType es⟩ := by
    unfold Graph.diffOpFl
    rw [h1]
    rcases hlt with h | h <;> rw [h]
  rw [hD'] at hD
  rw [hDh'] at hDh
  simp only [Except.ok.injEq, Sigma.mk.injEq] at hD hDh
  obtain ⟨rfl, hD⟩ := hD
  have hD := eq_of_heq hD
  have hDh := eq_of_heq hDh.2
  subst hD hDh
  have hnear : ∀ k, Near u (m + 8) ((diffMatrixFl fl g.W g.lapType es).dense v k) ((diffMatrix g.W g.lapType es).dense v k) |(diffMatrix g.W g.lapType es).dense v k| := fun k => by
    have hmem : es.get k ∈ es := List.get_mem _ _
    obtain ⟨hw, hw0⟩ : g.W.dense (es.get k).1 (es.get k).2.1 = (es.get k).2.2 ∧ (es.get k).2.2 ≠ 0 := ⟨((h4 _ _ _).1 hmem).1, ((h4 _ _ _).1 hmem).2.1⟩
    obtain ⟨hn1, hn2⟩ := values_near (W := g.W) hr hnn hrow hcol hsmall g.lapType hw hw0
    simp only [Prod.mk.eta] at hn1 hn2
    rw [diff_dense, diffMatrix_dense]
    have hst : (es.get k).1 ≠ (es.get k).2.1 := fun h => hw0 (by rw [← hw, h, hloop])
    by_cases hs : (es.get k).1 = v
    · have ht : (es.get k).2.1 ≠ v := fun h => hst (hs.trans h.symm)
      rw [if_pos hs, if_neg ht, if_pos hs, if_neg ht, add_zero, add_zero]
      exact hn1
    · by_cases ht : (es.get k).2.1 = v
      · rw [if_neg hs, if_pos ht, if_neg hs, if_pos ht, zero_add, zero_add]
        exact hn2
      · rw [if_neg hs, if_neg ht, if_neg hs, if_neg ht, add_zero, abs_zero]
        exact ⟨by simp, by simp⟩
  have hz : ∀ k, (diffMatrixFl fl g.W g.lapType es).dense v k ≠ 0 → (diffMatrix g.W g.lapType es).dense v k ≠ 0 := fun k hk h => hk (by
    have := (hnear k).1
    rw [h, abs_zero, mul_zero, sub_zero] at this
    exact abs_eq_zero.1 (le_antisymm this (abs_nonneg _)))
  have hcard : (Finset.univ.filter fun k => (diffMatrixFl fl g.W g.lapType es).dense v k ≠ 0).card ≤ q :=
    (Finset.card_le_card fun k hk => by simp only [Finset.mem_filter, Finset.mem_univ, true_and] at hk ⊢; exact hz k hk).trans hq
  have h5 := ((dot_near hr hnear hcard y).mono hr.nonneg (m' := m + q + 9) (by omega) le_rfl).1
  exact h5

/-- **C148** The gradient of a constant signal is computed as exactly zero on every edge, for every rounding that is odd and leaves rounded numbers unchanged. -/
theorem C148_constant {g : Graph n ℝ} (hl : g.lapType = .combinatorial) (hr : Rounds fl u) (hodd : ∀ x, fl (-x) = -fl x) (htw : ∀ x, fl (fl x) = fl x)
    {q : ℕ} {D : Sp n q ℝ} (hD : g.diffOpFl fl = .ok ⟨q, D⟩) (c : ℝ) : gradFl fl D (fun _ => c) = 0 := by
  unfold Graph.diffOpFl at hD
  cases hes : g.getEdgeList with
  | error e => rw [hes] at hD; simp at hD
  | ok es =>
    rw [hes, hl] at hD
    simp only [Except.ok.injEq, Sigma.mk.injEq] at hD
    obtain ⟨rfl, hD⟩ := hD
    have hD := eq_of_heq hD
    subst hD
    funext k
    have hv : ∀ e, (diffValuesFl fl g.W .combinatorial e).1 = -(diffValuesFl fl g.W .combinatorial e).2 := fun e => by
      unfold diffValuesFl
      dsimp only
      split
      · rw [neg_neg, neg_div, hodd]
      · rw [neg_neg]
    unfold gradFl
    by_cases hst : (es.get k).1 = (es.get k).2.1
    · have : (fun v => (diffMatrixFl fl g.W .combinatorial es).dense v k) = fun _ => 0 := by
        funext v
        rw [diff_dense, ← hst, hv]
        split <;> simp
      rw [this]
      simp [dotFl]
    · refine dot_opposite (s := (es.get k).1) (t := (es.get k).2.1) (b := (diffValuesFl fl g.W .combinatorial (es.get k)).2) (fl_zero hr) hodd htw hst ?_ ?_ (fun v h1 h2 => ?_) c
      · rw [diff_dense, if_pos rfl, if_neg (Ne.symm hst), hv, add_zero]
      · rw [diff_dense, if_neg hst, if_pos rfl, zero_add]
      · rw [diff_dense, if_neg (Ne.symm h1), if_neg (Ne.symm h2), add_zero]

/-- **C148** For an undirected graph with integer weights and an integer signal, the energy is exact whatever the order of the operations, as long as the sums of the absolute values stay
below the integers that the floating-point numbers represent (below `2 ^ 53` in double precision). -/
theorem C148_integers {B : ℤ} (hfl : ∀ z : ℤ, |z| ≤ B → fl z = z) (hu : Undirected W.dense) {Z : Matrix (Fin n) (Fin n) ℤ} (hZ : ∀ v w, W.dense v w = Z v w) {x : Fin n → ℤ}
    (hB : ∀ v, ∑ w, |Z w v| + |Z v v| ≤ B) (hB1 : ∀ v, ∑ w, |Z v w| * (|x v| + |x w|) ≤ B) (hB2 : ∑ v, |x v| * ∑ w, |Z v w| * (|x v| + |x w|) ≤ B) {r : ℝ}
    (h : EnergyFl fl (combLapFl fl W) (fun v => x v) r) : r = dirichlet W.dense fun v => x v := by
  rw [C142_integers hfl hu hZ hB] at h
  have hL : ∀ v w, combLap W.dense v w = (((if v = w then ∑ a, Z v a else 0) - Z v w : ℤ) : ℝ) := fun v w => by
    have e1 : ∀ v w, wsym W.dense v w = Z v w := fun v w => by
      unfold wsym
      rw [hu w v, hZ]
      ring
    unfold combLap
    rw [Matrix.of_apply, ← sum_wsym]
    simp only [e1]
    push_cast
    split <;> simp
  have hrow : ∀ v, ∑ w, |((if v = w then ∑ a, Z v a else 0) - Z v w) * x w| ≤ ∑ w, |Z v w| * (|x v| + |x w|) := fun v => by
    have h1 : ∀ w, |((if v = w then ∑ a, Z v a else 0) - Z v w) * x w| ≤ (if v = w then (∑ a, |Z v a|) * |x v| else 0) + |Z v w| * |x w| := fun w => by
      rw [abs_mul]
      have h2 := abs_sub (if v = w then ∑ a, Z v a else 0) (Z v w)
      have h3 : |if v = w then ∑ a, Z v a else 0| ≤ if v = w then ∑ a, |Z v a| else 0 := by
        split
        · exact Finset.abs_sum_le_sum_abs _ _
        · simp
      refine (mul_le_mul_of_nonneg_right (h2.trans (add_le_add_left h3 _)) (abs_nonneg _)).trans ?_
      rw [add_mul]
      split
      · rename_i hvw; rw [hvw]
      · simp
    refine (Finset.sum_le_sum fun w _ => h1 w).trans ?_
    rw [Finset.sum_add_distrib, Finset.sum_ite_eq, if_pos (Finset.mem_univ v), Finset.sum_mul, ← Finset.sum_add_distrib]
    exact Finset.sum_le_sum fun w _ => by rw [mul_add]
  have hdot : ∀ v, dotFl fl (combLap W.dense v) (fun v => (x v : ℝ)) = ((∑ w, ((if v = w then ∑ a, Z v a else 0) - Z v w) * x w : ℤ) : ℝ) := fun v =>
    dot_int hfl (hL v) (fun _ => rfl) ((hrow v).trans (hB1 v))
  have h2 := any_int hfl (A := x) (Y := fun v => ∑ w, ((if v = w then ∑ a, Z v a else 0) - Z v w) * x w) (fun _ => rfl) hdot (by
    refine le_trans (Finset.sum_le_sum fun v _ => ?_) hB2
    rw [abs_mul]
    exact mul_le_mul_of_nonneg_left ((Finset.abs_sum_le_sum_abs _ _).trans (hrow v)) (abs_nonneg _)) h
  rw [h2, ← combLap_quad]
  simp only [dotProduct, Matrix.mulVec, hL]
  push_cast
  rfl

end

/-- **C148** A deviation: the energy can be negative.  With `p` binary digits, on the path of three vertices with the weights `1` and `2 ^ -(p + 1)`, `dirichlet_energy` of the constant
signal `1` is `-2 ^ -(p + 1)`, whatever the order of the operations, where the exact energy and the computed gradient are zero. -/
theorem C148_negative_violated {p : ℕ} (hp : 0 < p) : ∃ g : Graph 3 ℝ, g.Built ∧ NonnegW g.W.dense ∧ Undirected g.W.dense ∧ Connected g.W.dense ∧ g.lapType = .combinatorial ∧
    (∃ r, EnergyFl (nearestOdd p) (combLapFl (nearestOdd p) g.W) (fun _ => 1) r) ∧
    (∀ r, EnergyFl (nearestOdd p) (combLapFl (nearestOdd p) g.W) (fun _ => 1) r → r = -(2 : ℝ) ^ (-((p : ℤ) + 1))) ∧
    dirichlet g.W.dense (fun _ => 1) = 0 ∧ ∃ q, ∃ D : Sp 3 q ℝ, g.diffOpFl (nearestOdd p) = .ok ⟨q, D⟩ ∧ gradFl (nearestOdd p) D (fun _ => 1) = 0 := by
  obtain ⟨g, hg, hd, hl⟩ := Graph.exists_built (path3 ((2 : ℝ) ^ (-((p : ℤ) + 1))))
  have hw : (0 : ℝ) < 2 ^ (-((p : ℤ) + 1)) := by positivity
  obtain ⟨es, h1, -⟩ := C04_edge_list g hg
  have hD : g.diffOpFl (nearestOdd p) = .ok ⟨es.length, diffMatrixFl (nearestOdd p) g.W .combinatorial es⟩ := by
    unfold Graph.diffOpFl
    rw [h1, hl]
  refine ⟨g, hg, ?_, ?_, ?_, hl, dotAny_exists _ _ _ _ ⟨0, Finset.mem_univ _⟩, fun r hr => path3_energy hp hd hr, ?_, _, _, hD, ?_⟩
  · rw [hd]; exact path3_nonneg hw.le
  · rw [hd]; exact path3_undirected _
  · rw [hd]; exact path3_connected hw.ne'
  · simp [dirichlet]
  · exact C148_constant hl (odd_rounds p) (odd_neg p) (odd_twice hp) hD 1

/-- Witness for `C148_energy`, `C148_grad` and `C148_div`: the path of three vertices with weights 1 and 1/4 in double precision. -/
example : ∃ (g : Graph 3 ℝ) (e : ℕ) (D Dh : Sp 3 e ℝ) (r : ℝ), g.Built ∧ Rounds (nearestOdd 53) ((2 : ℝ) ^ (-53 : ℤ)) ∧ NonnegW g.W.dense ∧ (∀ i, g.W.dense i i = 0) ∧
    (∀ v, (Finset.univ.filter fun w => g.W.dense v w ≠ 0).card ≤ 3) ∧ (∀ v, (Finset.univ.filter fun w => g.W.dense w v ≠ 0).card ≤ 3) ∧
    (∀ v, (Finset.univ.filter fun w => g.W.dense v w ≠ 0 ∨ g.W.dense w v ≠ 0 ∨ v = w).card ≤ 3) ∧ roundings ((2 : ℝ) ^ (-53 : ℤ)) (3 + 3) ≤ 1 / 2 ∧ g.lapType = .combinatorial ∧
    g.diffOp = .ok ⟨e, D⟩ ∧ g.diffOpFl (nearestOdd 53) = .ok ⟨e, Dh⟩ ∧ EnergyFl (nearestOdd 53) (combLapFl (nearestOdd 53) g.W) ![1, 2, 4] r := by
  obtain ⟨g, hg, hd, hl⟩ := Graph.exists_built (path3 (1 / 4))
  obtain ⟨es, h1, -⟩ := C04_edge_list g hg
  obtain ⟨r, hr⟩ := dotAny_exists (nearestOdd 53) ![1, 2, 4] (fun v => dotFl (nearestOdd 53) (combLapFl (nearestOdd 53) g.W v) ![1, 2, 4]) Finset.univ ⟨(0 : Fin 3), Finset.mem_univ _⟩
  refine ⟨g, es.length, diffMatrix g.W .combinatorial es, diffMatrixFl (nearestOdd 53) g.W .combinatorial es, r, hg, by simpa using odd_rounds 53, ?_, ?_, fun v => ?_, fun v => ?_, fun v => ?_, ?_, hl, ?_, ?_, hr⟩
  · rw [hd]; exact path3_nonneg (by norm_num)
  · rw [hd]; intro i; fin_cases i <;> simp [path3]
  · exact (Finset.card_le_univ _).trans (by simp)
  · exact (Finset.card_le_univ _).trans (by simp)
  · exact (Finset.card_le_univ _).trans (by simp)
  · unfold roundings; norm_num
  · unfold Graph.diffOp; rw [h1, hl]
  · unfold Graph.diffOpFl; rw [h1, hl]

/-- Witness for `C148_integers`: the path of three vertices with weights 1 and 3, and the signal `(0, 2, -5)`, in double precision; the energy is 151. -/
example : ∃ (g : Graph 3 ℝ) (r : ℝ), g.Built ∧ EnergyFl (nearest 53) (combLapFl (nearest 53) g.W) (fun v => (![0, 2, -5] : Fin 3 → ℤ) v) r ∧ r = 151 := by
  obtain ⟨g, hg, hd, hl⟩ := Graph.exists_built (path3 3)
  obtain ⟨r, hr⟩ := dotAny_exists (nearest 53) (fun v => ((![0, 2, -5] : Fin 3 → ℤ) v : ℝ)) (fun v => dotFl (nearest 53) (combLapFl (nearest 53) g.W v) fun v => ((![0, 2, -5] : Fin 3 → ℤ) v : ℝ))
    Finset.univ ⟨(0 : Fin 3), Finset.mem_univ _⟩
  refine ⟨g, r, hg, hr, ?_⟩
  rw [C148_integers (B := 2 ^ 52) (Z := !![0, 1, 0; 1, 0, 3; 0, 3, 0]) (fun z hz => (C142_nearest 53).2 z (lt_of_le_of_lt hz (by norm_num))) (by rw [hd]; exact path3_undirected _)
    (by rw [hd]; intro i j; fin_cases i <;> fin_cases j <;> simp [path3]) (by decide) (by decide) (by decide) hr, hd]
  simp [dirichlet, path3, Fin.sum_univ_three]
  norm_num

end PyGSP
