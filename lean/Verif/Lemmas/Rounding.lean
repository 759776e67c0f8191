import Verif.Model.Rounding
import Verif.Lemmas.Weyl
import Mathlib.RingTheory.Polynomial.Chebyshev
import Mathlib.Analysis.SpecialFunctions.Trigonometric.Chebyshev.RootsExtrema
import Mathlib.Analysis.InnerProductSpace.PiL2
import Mathlib.Analysis.Real.Sqrt

/-! # Rounding errors -/

namespace PyGSP

open Matrix Spec

variable {n : ℕ}

/-- The Euclidean norm of a signal. -/
noncomputable def Spec.len (x : Fin n → ℝ) : ℝ := √(∑ v, x v ^ 2)

namespace Rounding

theorem len_eq (x : Fin n → ℝ) : len x = ‖WithLp.toLp 2 x‖ := by
  unfold len
  rw [EuclideanSpace.norm_eq]
  simp [sq_abs]

theorem len_nonneg (x : Fin n → ℝ) : 0 ≤ len x := Real.sqrt_nonneg _

theorem len_add (x y : Fin n → ℝ) : len (x + y) ≤ len x + len y := by
  rw [len_eq, len_eq, len_eq, WithLp.toLp_add]
  exact norm_add_le _ _

theorem len_sub (x y : Fin n → ℝ) : len (x - y) ≤ len x + len y := by
  rw [len_eq, len_eq, len_eq, WithLp.toLp_sub]
  exact norm_sub_le _ _

theorem len_smul (a : ℝ) (x : Fin n → ℝ) : len (a • x) = |a| * len x := by
  rw [len_eq, len_eq, WithLp.toLp_smul, norm_smul, Real.norm_eq_abs]

theorem len_zero : len (0 : Fin n → ℝ) = 0 := by simp [len]

theorem len_sum {ι : Type} (s : Finset ι) (f : ι → Fin n → ℝ) : len (∑ i ∈ s, f i) ≤ ∑ i ∈ s, len (f i) := by
  classical
  induction s using Finset.induction_on with
  | empty => simp [len_zero]
  | insert a s ha ih =>
    rw [Finset.sum_insert ha, Finset.sum_insert ha]
    exact (len_add _ _).trans (by linarith)

theorem len_mono {x y : Fin n → ℝ} (h : ∀ v, |x v| ≤ |y v|) : len x ≤ len y :=
  Real.sqrt_le_sqrt (Finset.sum_le_sum fun v _ => by rw [← sq_abs (x v), ← sq_abs (y v)]; exact pow_le_pow_left₀ (abs_nonneg _) (h v) 2)

theorem len_abs (x : Fin n → ℝ) : len (fun v => |x v|) = len x := by simp [len, sq_abs]

theorem len_orth {L U : Matrix (Fin n) (Fin n) ℝ} {e : Fin n → ℝ} (h : IsEigenPairs L e U) (y : Fin n → ℝ) : len (U *ᵥ y) = len y := by
  unfold len
  have := Weyl.norm_basis h y
  simp only [dotProduct, ← sq] at this
  rw [this]

theorem coord {L U : Matrix (Fin n) (Fin n) ℝ} {e : Fin n → ℝ} (h : IsEigenPairs L e U) (x : Fin n → ℝ) : U *ᵥ (Uᵀ *ᵥ x) = x := by
  rw [Matrix.mulVec_mulVec, mul_eq_one_comm.1 h.orthonormal, Matrix.one_mulVec]

/-- `xh` is `x` up to `m` roundings, relative to the magnitude `s` -/
def Near (u : ℝ) (m : ℕ) (xh x s : ℝ) : Prop := |xh - x| ≤ ((1 + u) ^ m - 1) * s ∧ |x| ≤ s

variable {u : ℝ} {fl : ℝ → ℝ}

theorem one_le_pow (hu : 0 ≤ u) (m : ℕ) : 1 ≤ (1 + u) ^ m := one_le_pow₀ (by linarith)

theorem Near.refl (x : ℝ) : Near u 0 x x |x| := by simp [Near]

theorem Near.nonneg {m : ℕ} {xh x s : ℝ} (h : Near u m xh x s) : 0 ≤ s := (abs_nonneg _).trans h.2

theorem Near.mono (hu : 0 ≤ u) {m m' : ℕ} {xh x s s' : ℝ} (h : Near u m xh x s) (hm : m ≤ m') (hs : s ≤ s') : Near u m' xh x s' := by
  refine ⟨h.1.trans ?_, h.2.trans hs⟩
  have h1 := pow_le_pow_right₀ (show (1 : ℝ) ≤ 1 + u by linarith) hm
  exact mul_le_mul (by linarith) hs h.nonneg (by linarith [one_le_pow hu m'])

theorem Near.abs_le {m : ℕ} {xh x s : ℝ} (h : Near u m xh x s) : |xh| ≤ (1 + u) ^ m * s := by
  have := abs_sub_abs_le_abs_sub xh x
  have h1 := h.1
  have h2 := h.2
  linarith

theorem Near.round (hr : Rounds fl u) {m : ℕ} {xh x s : ℝ} (h : Near u m xh x s) : Near u (m + 1) (fl xh) x s := by
  refine ⟨?_, h.2⟩
  have h1 := hr.err xh
  have h2 := mul_le_mul_of_nonneg_left h.abs_le hr.nonneg
  have h3 := abs_sub_le (fl xh) xh x
  have h4 := h.1
  rw [pow_succ]
  nlinarith

theorem Near.add {m : ℕ} {ah a sa bh b sb : ℝ} (h : Near u m ah a sa) (h' : Near u m bh b sb) : Near u m (ah + bh) (a + b) (sa + sb) := by
  refine ⟨?_, (abs_add_le _ _).trans (add_le_add h.2 h'.2)⟩
  rw [add_sub_add_comm, mul_add]
  exact (abs_add_le _ _).trans (add_le_add h.1 h'.1)

theorem Near.neg {m : ℕ} {ah a sa : ℝ} (h : Near u m ah a sa) : Near u m (-ah) (-a) sa := by
  refine ⟨?_, by rw [abs_neg]; exact h.2⟩
  rw [neg_sub_neg, abs_sub_comm]
  exact h.1

theorem Near.sub {m : ℕ} {ah a sa bh b sb : ℝ} (h : Near u m ah a sa) (h' : Near u m bh b sb) : Near u m (ah - bh) (a - b) (sa + sb) := by
  rw [sub_eq_add_neg, sub_eq_add_neg]
  exact h.add h'.neg

theorem Near.mul (hu : 0 ≤ u) {m k : ℕ} {ah a sa bh b sb : ℝ} (h : Near u m ah a sa) (h' : Near u k bh b sb) : Near u (m + k) (ah * bh) (a * b) (sa * sb) := by
  refine ⟨?_, by rw [abs_mul]; exact mul_le_mul h.2 h'.2 (abs_nonneg _) h.nonneg⟩
  have e : ah * bh - a * b = ah * (bh - b) + b * (ah - a) := by ring
  rw [e]
  have h1 : |ah * (bh - b)| ≤ (1 + u) ^ m * sa * (((1 + u) ^ k - 1) * sb) := by
    rw [abs_mul]
    exact mul_le_mul h.abs_le h'.1 (abs_nonneg _) (mul_nonneg (by positivity) h.nonneg)
  have h2 : |b * (ah - a)| ≤ sb * (((1 + u) ^ m - 1) * sa) := by
    rw [abs_mul]
    exact mul_le_mul h'.2 h.1 (abs_nonneg _) h'.nonneg
  refine (abs_add_le _ _).trans ((add_le_add h1 h2).trans (le_of_eq ?_))
  rw [pow_add]
  ring

theorem Near.div {m : ℕ} {ah a sa : ℝ} (h : Near u m ah a sa) {c : ℝ} (hc : 0 < c) : Near u m (ah / c) (a / c) (sa / c) := by
  refine ⟨?_, by rw [abs_div, abs_of_pos hc]; exact div_le_div_of_nonneg_right h.2 hc.le⟩
  rw [← sub_div, abs_div, abs_of_pos hc, ← mul_div_assoc]
  exact div_le_div_of_nonneg_right h.1 hc.le

theorem fl_zero (hr : Rounds fl u) : fl 0 = 0 := by
  have := hr.err 0
  simpa using this

/-- the loop of a scalar product -/
theorem dot_loop (hr : Rounds fl u) {a' a s y : Fin n → ℝ} {k : ℕ} : ∀ (l : List (Fin n)), (∀ j ∈ l, Near u k (a' j) (a j) (s j)) → ∀ (m : ℕ) (acc0 acc sa : ℝ), k + 1 ≤ m → Near u m acc0 acc sa →
    Near u (m + l.length) (l.foldl (fun acc j => fl (acc + fl (a' j * y j))) acc0) (acc + (l.map fun j => a j * y j).sum) (sa + (l.map fun j => s j * |y j|).sum)
  | [], _, m, acc0, acc, sa, _, h => by simpa using h
  | j :: l, hl, m, acc0, acc, sa, hm, h => by
    have h1 : Near u (k + 1) (fl (a' j * y j)) (a j * y j) (s j * |y j|) := ((hl j (by simp)).mul hr.nonneg (Near.refl (y j))).round hr
    have h2 : Near u (m + 1) (fl (acc0 + fl (a' j * y j))) (acc + a j * y j) (sa + s j * |y j|) := (h.add (h1.mono hr.nonneg hm le_rfl)).round hr
    have := dot_loop hr (y := y) l (fun i hi => hl i (by simp [hi])) (m + 1) _ _ _ (by omega) h2
    simp only [List.foldl_cons, List.map_cons, List.sum_cons, List.length_cons]
    rw [show m + (l.length + 1) = m + 1 + l.length by omega, ← add_assoc acc, ← add_assoc sa]
    exact this

theorem Near.sum (hu : 0 ≤ u) {m : ℕ} {ι : Type} (t : Finset ι) {ah a s : ι → ℝ} (h : ∀ i ∈ t, Near u m (ah i) (a i) (s i)) : Near u m (∑ i ∈ t, ah i) (∑ i ∈ t, a i) (∑ i ∈ t, s i) := by
  classical
  induction t using Finset.induction_on with
  | empty => exact ⟨by simp, by simp⟩
  | insert i t hi ih =>
    rw [Finset.sum_insert hi, Finset.sum_insert hi, Finset.sum_insert hi]
    exact (h i (by simp)).add (ih fun j hj => h j (by simp [hj]))

theorem sum_filter_list (p : Fin n → Prop) [DecidablePred p] (f : Fin n → ℝ) : (((List.finRange n).filter fun j => p j).map f).sum = ∑ j with p j, f j := by
  rw [← List.sum_toFinset _ ((List.nodup_finRange n).filter _), List.toFinset_filter, List.toFinset_finRange]
  refine Finset.sum_congr (Finset.filter_congr fun j _ => by simp) fun _ _ => rfl

/-- the error of a scalar product whose coefficients carry `k` roundings: at most `k + 1 + r` roundings for `r` stored coefficients -/
theorem dot_near (hr : Rounds fl u) {a' a s : Fin n → ℝ} {k r : ℕ} (ha : ∀ j, Near u k (a' j) (a j) (s j))
    (hcard : (Finset.univ.filter fun j => a' j ≠ 0).card ≤ r) (y : Fin n → ℝ) : Near u (k + 1 + r) (dotFl fl a' y) (∑ j, a j * y j) (∑ j, s j * |y j|) := by
  have h := dot_loop hr (y := y) ((List.finRange n).filter fun j => a' j ≠ 0) (fun j _ => ha j) (k + 1) 0 0 0 le_rfl ⟨by simp, by simp⟩
  have e1 := sum_filter_list (fun j => a' j ≠ 0) (fun j => a j * y j)
  have e2 := sum_filter_list (fun j => a' j ≠ 0) (fun j => s j * |y j|)
  rw [e1, e2, zero_add, zero_add] at h
  have hlen : ((List.finRange n).filter fun j => a' j ≠ 0).length = (Finset.univ.filter fun j => a' j ≠ 0).card := by
    rw [← List.toFinset_card_of_nodup ((List.nodup_finRange n).filter _), List.toFinset_filter, List.toFinset_finRange]
    congr 1
    ext j
    simp
  have h' := h.mono hr.nonneg (show _ ≤ k + 1 + r by omega) le_rfl
  have hz : Near u (k + 1 + r) (∑ j with ¬ a' j ≠ 0, a' j * y j) (∑ j with ¬ a' j ≠ 0, a j * y j) (∑ j with ¬ a' j ≠ 0, s j * |y j|) :=
    Near.sum hr.nonneg _ fun j _ => ((ha j).mul hr.nonneg (Near.refl (y j))).mono hr.nonneg (by omega) le_rfl
  have h0 : ∑ j with ¬ a' j ≠ 0, a' j * y j = 0 := Finset.sum_eq_zero fun j hj => by
    rw [not_not.1 (Finset.mem_filter.1 hj).2, zero_mul]
  rw [h0] at hz
  have := h'.add hz
  rw [Finset.sum_filter_add_sum_filter_not, Finset.sum_filter_add_sum_filter_not, add_zero] at this
  exact this

/-! ### The recurrence -/

open Polynomial

/-- the values of the Chebyshev polynomials of the second kind -/
noncomputable def second (x : ℝ) (k : ℕ) : ℝ := (Chebyshev.U ℝ k).eval x

theorem second_abs {x : ℝ} (hx : |x| ≤ 1) : ∀ k : ℕ, |second x k| ≤ k + 1
  | 0 => by simp [second]
  | k + 1 => by
    have h : second x (k + 1) = x * second x k + (Chebyshev.T ℝ (k + 1 : ℕ)).eval x := by
      unfold second
      have := congrArg (eval x) (Chebyshev.U_eq_X_mul_U_add_T ℝ (k : ℤ))
      simpa using this
    rw [h]
    refine (abs_add_le _ _).trans ?_
    rw [abs_mul]
    have h1 := second_abs hx k
    have h2 := Chebyshev.abs_eval_T_real_le_one (k + 1 : ℕ) hx
    have h3 := mul_le_mul hx h1 (abs_nonneg _) zero_le_one
    push_cast at h2 ⊢
    linarith

theorem second_zero (x : ℝ) : second x 0 = 1 := by simp [second]
theorem second_one (x : ℝ) : second x 1 = 2 * x := by simp [second]
theorem second_add_two (x : ℝ) (k : ℕ) : second x (k + 2) = 2 * x * second x (k + 1) - second x k := by
  unfold second
  have := congrArg (eval x) (Chebyshev.U_add_two ℝ (k : ℤ))
  simpa using this

/-- the solution of the perturbed recurrence -/
theorem recurrence_sum {x : ℝ} {e d : ℕ → ℝ} (h0 : e 0 = 0) (h1 : e 1 = d 0) (h2 : ∀ k, e (k + 2) = 2 * x * e (k + 1) - e k + d (k + 1)) :
    ∀ k, e (k + 1) = ∑ j ∈ Finset.range (k + 1), second x (k - j) * d j := by
  intro k
  induction k using Nat.strong_induction_on with
  | _ k ih =>
    match k with
    | 0 => simp [h1, second_zero]
    | 1 =>
      have := h2 0
      simp only [Nat.reduceAdd, zero_add] at this ⊢
      rw [this, h0, h1]
      simp [Finset.sum_range_succ, second_zero, second_one]
    | k + 2 =>
      rw [h2 (k + 1), ih (k + 1) (by omega), ih k (by omega), Finset.sum_range_succ _ (k + 2), Finset.sum_range_succ _ (k + 1), Finset.sum_range_succ _ (k + 1)]
      have e1 : ∀ j ∈ Finset.range (k + 1), second x (k + 2 - j) * d j = 2 * x * (second x (k + 1 - j) * d j) - second x (k - j) * d j := fun j hj => by
        have hj := Finset.mem_range.1 hj
        rw [show k + 2 - j = (k - j) + 2 by omega, show k + 1 - j = (k - j) + 1 by omega, second_add_two]
        ring
      rw [Finset.sum_congr rfl e1, Finset.sum_sub_distrib, ← Finset.mul_sum]
      have e2 : k + 2 - (k + 1) = 1 := by omega
      rw [e2, Nat.sub_self, Nat.sub_self, second_zero, second_one]
      ring

/-- the perturbed recurrence for a matrix with eigenvalues in `[-1, 1]` -/
theorem recurrence_len {A U : Matrix (Fin n) (Fin n) ℝ} {w : Fin n → ℝ} (hE : IsEigenPairs A w U) (hw : ∀ i, |w i| ≤ 1) {e d : ℕ → Fin n → ℝ} (h0 : e 0 = 0) (h1 : e 1 = d 0)
    (h2 : ∀ k, e (k + 2) = (2 : ℝ) • (A *ᵥ e (k + 1)) - e k + d (k + 1)) (k : ℕ) : len (e k) ≤ ∑ j ∈ Finset.range k, ((k : ℝ) - j) * len (d j) := by
  match k with
  | 0 => simp [h0, len_zero]
  | k + 1 =>
    have hAU : ∀ x : Fin n → ℝ, Uᵀ *ᵥ (A *ᵥ x) = fun i => w i * (Uᵀ *ᵥ x) i := fun x => by
      have h : Uᵀ * A = Matrix.diagonal w * Uᵀ := by
        have h3 : U * Uᵀ = 1 := mul_eq_one_comm.1 hE.orthonormal
        calc Uᵀ * A = Uᵀ * A * (U * Uᵀ) := by rw [h3, Matrix.mul_one]
          _ = Uᵀ * (A * U) * Uᵀ := by simp only [Matrix.mul_assoc]
          _ = Matrix.diagonal w * Uᵀ := by rw [hE.eig, ← Matrix.mul_assoc, hE.orthonormal, Matrix.one_mul]
      rw [Matrix.mulVec_mulVec, h, ← Matrix.mulVec_mulVec]
      funext i
      rw [Matrix.mulVec_diagonal]
    have hc : ∀ i, (Uᵀ *ᵥ e (k + 1)) i = ∑ j ∈ Finset.range (k + 1), second (w i) (k - j) * (Uᵀ *ᵥ d j) i := fun i => by
      refine recurrence_sum (e := fun k => (Uᵀ *ᵥ e k) i) (d := fun k => (Uᵀ *ᵥ d k) i) (by simp [h0]) (by simp [h1]) (fun k => ?_) k
      rw [h2, Matrix.mulVec_add, Matrix.mulVec_sub, Matrix.mulVec_smul, hAU]
      simp only [Pi.add_apply, Pi.sub_apply, Pi.smul_apply, smul_eq_mul]
      ring
    have hlen : ∀ x : Fin n → ℝ, len (Uᵀ *ᵥ x) = len x := fun x => by rw [← len_orth hE (Uᵀ *ᵥ x), coord hE]
    have hv : Uᵀ *ᵥ e (k + 1) = ∑ j ∈ Finset.range (k + 1), fun i => second (w i) (k - j) * (Uᵀ *ᵥ d j) i := by
      funext i
      rw [hc, Finset.sum_apply]
    rw [← hlen (e (k + 1)), hv]
    refine (len_sum _ _).trans (Finset.sum_le_sum fun j hj => ?_)
    have hj := Finset.mem_range.1 hj
    have hk : ((k + 1 : ℕ) : ℝ) - j = ((k - j : ℕ) : ℝ) + 1 := by
      rw [Nat.cast_sub (by omega)]; push_cast; ring
    rw [hk, ← hlen (d j), ← abs_of_nonneg (show (0 : ℝ) ≤ ((k - j : ℕ) : ℝ) + 1 by positivity), ← len_smul]
    refine len_mono fun i => ?_
    rw [Pi.smul_apply, smul_eq_mul, abs_mul, abs_mul, abs_of_nonneg (show (0 : ℝ) ≤ ((k - j : ℕ) : ℝ) + 1 by positivity)]
    exact mul_le_mul_of_nonneg_right (second_abs (hw i) _) (abs_nonneg _)

/-- when each step makes an error of at most `η` times the lengths of the two previous vectors -/
theorem recurrence_stable {A U : Matrix (Fin n) (Fin n) ℝ} {w : Fin n → ℝ} (hE : IsEigenPairs A w U) (hw : ∀ i, |w i| ≤ 1) {y yh : ℕ → Fin n → ℝ} {x : Fin n → ℝ} {η : ℝ} (hη : 0 ≤ η) {K : ℕ}
    (hK : 2 * K * (K + 1) * η ≤ 1) (hy : ∀ k, len (y k) ≤ len x) (y0 : yh 0 = y 0) (y1 : len (yh 1 - y 1) ≤ η * len x)
    (hrec : ∀ k, y (k + 2) = (2 : ℝ) • (A *ᵥ y (k + 1)) - y k)
    (hstep : ∀ k, len (yh (k + 2) - ((2 : ℝ) • (A *ᵥ yh (k + 1)) - yh k)) ≤ η * (len (yh (k + 1)) + len (yh k))) :
    ∀ k ≤ K, len (yh k - y k) ≤ 2 * k * (k + 1) * η * len x := by
  have hx : 0 ≤ len x := len_nonneg x
  set d : ℕ → Fin n → ℝ := fun k => match k with
    | 0 => yh 1 - y 1
    | k + 1 => yh (k + 2) - ((2 : ℝ) • (A *ᵥ yh (k + 1)) - yh k) with hd
  have key := recurrence_len hE hw (e := fun k => yh k - y k) (d := d) (by simp [y0]) rfl (fun k => by
    simp only [hd]
    rw [hrec k, Matrix.mulVec_sub, smul_sub]
    abel)
  intro k
  induction k using Nat.strong_induction_on with
  | _ k ih =>
    intro hkK
    have hbig : ∀ j < k, len (yh j) ≤ 2 * len x := fun j hj => by
      have h1 := ih j hj (by omega)
      have h2 := len_add (yh j - y j) (y j)
      rw [sub_add_cancel] at h2
      have h3 : 2 * (j : ℝ) * (j + 1) * η ≤ 1 := by
        refine le_trans ?_ hK
        have : (j : ℝ) ≤ K := by exact_mod_cast (by omega : j ≤ K)
        gcongr
      have h4 := mul_le_mul_of_nonneg_right h3 hx
      have := hy j
      linarith
    have hdj : ∀ j ∈ Finset.range k, len (d j) ≤ 4 * η * len x := fun j hj => by
      have hj := Finset.mem_range.1 hj
      match j, hj with
      | 0, _ =>
        refine y1.trans ?_
        nlinarith [mul_nonneg hη hx]
      | j + 1, hj =>
        refine (hstep j).trans ?_
        have h1 := hbig (j + 1) hj
        have h2 := hbig j (by omega)
        have := mul_le_mul_of_nonneg_left (add_le_add h1 h2) hη
        linarith
    refine (key k).trans ?_
    have h5 : ∑ j ∈ Finset.range k, ((k : ℝ) - j) * len (d j) ≤ ∑ j ∈ Finset.range k, ((k : ℝ) - j) * (4 * η * len x) :=
      Finset.sum_le_sum fun j hj => mul_le_mul_of_nonneg_left (hdj j hj) (by
        have : (j : ℝ) ≤ k := by exact_mod_cast (Finset.mem_range.1 hj).le
        linarith)
    refine h5.trans (le_of_eq ?_)
    rw [← Finset.sum_mul]
    have h6 : ∑ j ∈ Finset.range k, ((k : ℝ) - j) = k * (k + 1) / 2 := by
      rw [Finset.sum_sub_distrib, Finset.sum_const, Finset.card_range, nsmul_eq_mul]
      have h7 : ∀ k : ℕ, ∑ j ∈ Finset.range k, (j : ℝ) = k * (k - 1) / 2 := fun k => by
        induction k with
        | zero => simp
        | succ k ih => rw [Finset.sum_range_succ, ih]; push_cast; ring
      rw [h7]
      ring
    rw [h6]
    ring

end Rounding

end PyGSP
