import Verif.Lemmas.Rounding
import Verif.Lemmas.Frobenius
import Verif.Props.Cheby
import Verif.Props.Relabel
import Verif.Props.Interlacing
import Verif.Props.LmaxBounds
import Verif.Props.Frequency
import Verif.Lemmas.LiveFilter

/-!
# C142: rounding errors of Chebyshev filtering and of the Laplacian
-/

namespace PyGSP

open Matrix Spec Polynomial Rounding

variable {n : ℕ}

namespace Rounding

/-! ### With exact arithmetic the floating-point programs are the programs of the model -/

theorem dotFl_exact (a y : Fin n → ℝ) : dotFl (fun x => x) a y = ∑ j, a j * y j := by
  unfold dotFl
  have h : ∀ (l : List (Fin n)) (acc : ℝ), l.foldl (fun acc j => acc + a j * y j) acc = acc + (l.map fun j => a j * y j).sum := by
    intro l
    induction l with
    | nil => simp
    | cons j l ih => intro acc; rw [List.foldl_cons, ih]; simp [add_assoc]
  rw [h, zero_add, sum_filter_list (fun j => a j ≠ 0) fun j => a j * y j, Finset.sum_filter]
  refine Finset.sum_congr rfl fun j _ => ?_
  by_cases hj : a j = 0 <;> simp [hj]

theorem dotFl_mul {ns : ℕ} (A : Matrix (Fin n) (Fin n) ℝ) (X : Matrix (Fin n) (Fin ns) ℝ) (v : Fin n) (j : Fin ns) :
    dotFl (fun x => x) (A v) (fun w => X w j) = (A * X) v j := by rw [dotFl_exact, Matrix.mul_apply]

theorem chebLoopFl_exact {ns q : ℕ} (L : Matrix (Fin n) (Fin n) ℝ) (l : ℝ) (M : ℕ) (c : Fin q → ℕ → ℝ) (X : Matrix (Fin n) (Fin ns) ℝ) :
    chebLoopFl (fun x => x) L l M c X = chebLoop L l M c X := by
  unfold chebLoopFl chebLoop
  simp only [dotFl_mul]
  have e1 : (Matrix.of fun v j => ((L * X) v j - (l + 0) / 2 * X v j) / ((l - 0) / 2)) = (1 / ((l - 0) / 2)) • (L * X - ((l + 0) / 2) • X) := by
    ext v j
    simp only [Matrix.of_apply, Matrix.smul_apply, Matrix.sub_apply, smul_eq_mul]
    ring
  have e2 : (Matrix.of fun v w => 2 / ((l - 0) / 2) * (L v w - if v = w then (l + 0) / 2 * 1 else 0)) = (2 / ((l - 0) / 2)) • (L - ((l + 0) / 2) • (1 : Matrix (Fin n) (Fin n) ℝ)) := by
    ext v w
    simp only [Matrix.of_apply, Matrix.smul_apply, Matrix.sub_apply, smul_eq_mul, Matrix.one_apply]
    split <;> ring
  have e3 : chebStepFl (fun x => x) (ns := ns) (q := q) (n := n) = chebStep := by
    funext factor c st k
    unfold chebStepFl chebStep
    simp only [dotFl_mul]
    have e4 : (Matrix.of fun v j => (factor * st.cur) v j - st.old v j) = factor * st.cur - st.old := by ext v j; rfl
    rw [e4]
    congr 1
  rw [e1, e2, e3]
  congr 1

end Rounding

/-- **C142** With exact arithmetic, the floating-point `cheby_op` is the `cheby_op` of the other theorems. -/
theorem C142_exact (S : Solvers n) (s : GState n) {ns q M : ℕ} (c : Fin q → Fin M → ℝ) (X : Matrix (Fin n) (Fin ns) ℝ) : chebyOpFl (fun x => x) S c X s = chebyOp S c X s := by
  unfold chebyOpFl chebyOp
  by_cases hM : M < 2
  · rw [if_pos hM, if_pos hM]
  · rw [if_neg hM, if_neg hM]
    obtain ⟨r, s'⟩ := Bank.lmaxNum S s
    rcases r with e | l
    · rfl
    · simp only [chebLoopFl_exact, sub_zero]

namespace Rounding

/-! ### One column of the loop -/

/-- the vectors `twf` of the loop -/
noncomputable def seqFl (fl : ℝ → ℝ) (F : Matrix (Fin n) (Fin n) ℝ) (x cur : Fin n → ℝ) : ℕ → Fin n → ℝ
  | 0 => x
  | 1 => cur
  | k + 2 => fun v => fl (dotFl fl (F v) (seqFl fl F x cur (k + 1)) - seqFl fl F x cur k v)

/-- the vectors `r` of the loop -/
noncomputable def accFl (fl : ℝ → ℝ) (F : Matrix (Fin n) (Fin n) ℝ) (x cur : Fin n → ℝ) (c : ℕ → ℝ) : ℕ → Fin n → ℝ
  | 0 => fun v => fl (fl (fl (1 / 2 * c 0) * x v) + fl (c 1 * cur v))
  | t + 1 => fun v => fl (accFl fl F x cur c t v + fl (c (t + 2) * seqFl fl F x cur (t + 2) v))

theorem loop_columns (fl : ℝ → ℝ) (F : Matrix (Fin n) (Fin n) ℝ) {ns q : ℕ} (X cur : Matrix (Fin n) (Fin ns) ℝ) (c : Fin q → ℕ → ℝ) (t : ℕ) :
    (List.range' 2 t).foldl (chebStepFl fl F c) { old := X, cur := cur, r := fun i => Matrix.of fun v j => fl (fl (fl (1 / 2 * c i 0) * X v j) + fl (c i 1 * cur v j)) } =
      { old := Matrix.of fun v j => seqFl fl F (fun w => X w j) (fun w => cur w j) t v, cur := Matrix.of fun v j => seqFl fl F (fun w => X w j) (fun w => cur w j) (t + 1) v,
        r := fun i => Matrix.of fun v j => accFl fl F (fun w => X w j) (fun w => cur w j) (c i) t v } := by
  induction t with
  | zero =>
    simp only [List.range'_zero, List.foldl_nil, seqFl, accFl]
    congr 1
  | succ t ih =>
    rw [List.range'_1_concat, List.foldl_append, ih]
    simp only [List.foldl_cons, List.foldl_nil, chebStepFl, seqFl, accFl, Matrix.of_apply, add_comm 2 t]

/-! ### Local errors -/

variable {u : ℝ} {fl : ℝ → ℝ}

/-- the bound of the relative error of `m` roundings -/
noncomputable def _root_.PyGSP.Spec.roundings (u : ℝ) (m : ℕ) : ℝ := (1 + u) ^ m - 1

theorem roundings_nonneg (hu : 0 ≤ u) (m : ℕ) : 0 ≤ roundings u m := by
  unfold roundings
  linarith [one_le_pow hu m]

theorem roundings_mono (hu : 0 ≤ u) {m m' : ℕ} (h : m ≤ m') : roundings u m ≤ roundings u m' := by
  unfold roundings
  linarith [pow_le_pow_right₀ (show (1 : ℝ) ≤ 1 + u by linarith) h]

theorem half_lmax (hr : Rounds fl u) {l : ℝ} (hl : fl l = l) : fl (fl l / 2) = l / 2 := by rw [hr.half, hl, hl]

/-- the matrix `factor` -/
theorem factor_near (hr : Rounds fl u) {l : ℝ} (hl : 0 < l) (L : Matrix (Fin n) (Fin n) ℝ) (v w : Fin n) :
    Near u 3 (fl (fl (2 / (l / 2)) * fl (L v w - if v = w then l / 2 else 0))) (2 * rescaled L l v w) |2 * rescaled L l v w| := by
  have h := (((Near.refl (u := u) (2 / (l / 2))).round hr).mul hr.nonneg ((Near.refl (u := u) (L v w - if v = w then l / 2 else 0)).round hr)).round hr
  have e : 2 / (l / 2) * (L v w - if v = w then l / 2 else 0) = 2 * rescaled L l v w := by
    unfold rescaled
    rw [Matrix.sub_apply, Matrix.smul_apply, smul_eq_mul, Matrix.one_apply]
    split <;> field_simp <;> ring
  rw [← abs_mul, e] at h
  exact h

theorem factor_zero (hr : Rounds fl u) {l : ℝ} (L : Matrix (Fin n) (Fin n) ℝ) {v w : Fin n} (h1 : L v w = 0) (h2 : v ≠ w) :
    fl (fl (2 / (l / 2)) * fl (L v w - if v = w then l / 2 else 0)) = 0 := by
  rw [h1, if_neg h2, sub_zero, fl_zero hr, mul_zero, fl_zero hr]

theorem len_bound {x b : Fin n → ℝ} {g : ℝ} (hg : 0 ≤ g) (h : ∀ v, |x v| ≤ g * b v) (hb : ∀ v, 0 ≤ b v) : len x ≤ g * len b := by
  rw [← abs_of_nonneg hg, ← len_smul]
  exact len_mono fun v => by
    rw [Pi.smul_apply, smul_eq_mul, abs_mul, abs_of_nonneg hg, abs_of_nonneg (hb v)]
    exact h v

section

variable (hr : Rounds fl u) {L : Matrix (Fin n) (Fin n) ℝ} {l : ℝ} (hl : 0 < l) {m : ℕ} (hm : ∀ v, (Finset.univ.filter fun w => L v w ≠ 0 ∨ v = w).card ≤ m) {β : ℝ} (hβ : 0 ≤ β)
  (hA : ∀ x : Fin n → ℝ, len (fun v => ∑ w, |rescaled L l v w| * |x w|) ≤ β * len x)
include hr hl hm hβ hA

/-- one step of the recurrence -/
theorem step_error (y z : Fin n → ℝ) :
    len ((fun v => fl (dotFl fl (fun w => fl (fl (2 / (l / 2)) * fl (L v w - if v = w then l / 2 else 0))) y - z v)) - ((2 : ℝ) • (rescaled L l *ᵥ y) - z)) ≤
      roundings u (m + 5) * (2 * β + 2) * (len y + len z) := by
  have hcomp : ∀ v, |((fun v => fl (dotFl fl (fun w => fl (fl (2 / (l / 2)) * fl (L v w - if v = w then l / 2 else 0))) y - z v)) - ((2 : ℝ) • (rescaled L l *ᵥ y) - z)) v| ≤
      roundings u (m + 5) * ((2 * ∑ w, |rescaled L l v w| * |y w|) + |z v|) := fun v => by
    have h1 := dot_near hr (r := m) (fun w => factor_near hr hl L v w) (le_trans (Finset.card_le_card fun w hw => ?_) (hm v)) y
    · have h2 := ((h1.mono hr.nonneg (show 3 + 1 + m ≤ m + 4 by omega) le_rfl).sub ((Near.refl (z v)).mono hr.nonneg (Nat.zero_le (m + 4)) le_rfl)).round hr
      have e1 : ∑ w, 2 * rescaled L l v w * y w = ((2 : ℝ) • (rescaled L l *ᵥ y)) v := by
        simp only [Pi.smul_apply, smul_eq_mul, Matrix.mulVec, dotProduct, Finset.mul_sum, mul_assoc]
      have e2 : ∑ w, |2 * rescaled L l v w| * |y w| = 2 * ∑ w, |rescaled L l v w| * |y w| := by
        simp only [abs_mul, abs_two, Finset.mul_sum, mul_assoc]
      rw [e1, e2] at h2
      exact h2.1
    · simp only [Finset.mem_filter, Finset.mem_univ, true_and] at hw ⊢
      by_contra hno
      simp only [not_or, not_not] at hno
      exact hw (factor_zero hr L hno.1 hno.2)
  refine (len_bound (roundings_nonneg hr.nonneg _) hcomp fun v => by positivity).trans ?_
  rw [mul_assoc]
  refine mul_le_mul_of_nonneg_left ?_ (roundings_nonneg hr.nonneg _)
  have e : (fun v => 2 * ∑ w, |rescaled L l v w| * |y w| + |z v|) = (2 : ℝ) • (fun v => ∑ w, |rescaled L l v w| * |y w|) + fun v => |z v| := by
    funext v
    simp
  rw [e]
  have h1 := len_add ((2 : ℝ) • (fun v => ∑ w, |rescaled L l v w| * |y w|)) fun v => |z v|
  rw [len_smul, abs_two, len_abs] at h1
  have h2 := hA y
  have h3 := len_nonneg y
  have h4 := len_nonneg z
  have h5 := mul_nonneg hβ h4
  nlinarith

/-- the first step -/
theorem first_error (x : Fin n → ℝ) :
    len ((fun v => fl (fl (dotFl fl (L v) x - fl (l / 2 * x v)) / (l / 2))) - rescaled L l *ᵥ x) ≤ roundings u (m + 5) * (2 * β + 2) * len x := by
  have hl2 : 0 < l / 2 := by positivity
  have hcomp : ∀ v, |((fun v => fl (fl (dotFl fl (L v) x - fl (l / 2 * x v)) / (l / 2))) - rescaled L l *ᵥ x) v| ≤
      roundings u (m + 5) * ((∑ w, |rescaled L l v w| * |x w|) + 2 * |x v|) := fun v => by
    have h1 := dot_near hr (r := m) (fun w => Near.refl (u := u) (L v w)) (le_trans (Finset.card_le_card fun w hw => by
      simp only [Finset.mem_filter, Finset.mem_univ, true_and] at hw ⊢
      exact .inl hw) (hm v)) x
    have h2 := (Near.refl (u := u) (l / 2 * x v)).round hr
    have h3 := (((h1.mono hr.nonneg (show 0 + 1 + m ≤ m + 1 by omega) le_rfl).sub (h2.mono hr.nonneg (show 0 + 1 ≤ m + 1 by omega) le_rfl)).round hr |>.div hl2).round hr
    have e1 : (∑ w, L v w * x w - l / 2 * x v) / (l / 2) = (rescaled L l *ᵥ x) v := by
      unfold rescaled
      rw [Matrix.sub_mulVec, Matrix.smul_mulVec, Matrix.one_mulVec]
      simp only [Pi.sub_apply, Pi.smul_apply, smul_eq_mul, Matrix.mulVec, dotProduct]
      field_simp
    rw [e1] at h3
    have e2 : (∑ w, |L v w| * |x w| + |l / 2 * x v|) / (l / 2) ≤ (∑ w, |rescaled L l v w| * |x w|) + 2 * |x v| := by
      rw [div_le_iff₀ hl2, abs_mul, abs_of_pos hl2]
      have h5 : ∀ w, |L v w| * |x w| ≤ l / 2 * (|rescaled L l v w| * |x w|) + if v = w then l / 2 * |x w| else 0 := fun w => by
        have h6 : L v w = l / 2 * rescaled L l v w + if v = w then l / 2 else 0 := by
          unfold rescaled
          rw [Matrix.sub_apply, Matrix.smul_apply, smul_eq_mul, Matrix.one_apply]
          split <;> field_simp <;> ring
        have h7 : |L v w| ≤ l / 2 * |rescaled L l v w| + if v = w then l / 2 else 0 := by
          rw [h6]
          refine (abs_add_le _ _).trans ?_
          rw [abs_mul, abs_of_pos hl2]
          have : |if v = w then l / 2 else 0| = if v = w then l / 2 else 0 := by
            rw [abs_of_nonneg]; split <;> positivity
          rw [this]
        refine (mul_le_mul_of_nonneg_right h7 (abs_nonneg (x w))).trans (le_of_eq ?_)
        split <;> ring
      have h8 := Finset.sum_le_sum fun w (_ : w ∈ Finset.univ) => h5 w
      rw [Finset.sum_add_distrib, ← Finset.mul_sum, Finset.sum_ite_eq, if_pos (Finset.mem_univ _)] at h8
      nlinarith
    exact (h3.mono hr.nonneg (show m + 1 + 1 + 1 ≤ m + 5 by omega) e2).1
  refine (len_bound (roundings_nonneg hr.nonneg _) hcomp fun v => by positivity).trans ?_
  rw [mul_assoc]
  refine mul_le_mul_of_nonneg_left ?_ (roundings_nonneg hr.nonneg _)
  have e : (fun v => (∑ w, |rescaled L l v w| * |x w|) + 2 * |x v|) = (fun v => ∑ w, |rescaled L l v w| * |x w|) + (2 : ℝ) • fun v => |x v| := by
    funext v
    simp
  rw [e]
  have h1 := len_add (fun v => ∑ w, |rescaled L l v w| * |x w|) ((2 : ℝ) • fun v => |x v|)
  rw [len_smul, abs_two, len_abs] at h1
  have h2 := hA x
  have h3 := len_nonneg x
  nlinarith [mul_nonneg hβ h3]

end

/-- the accumulation of the terms -/
theorem acc_near (hr : Rounds fl u) (F : Matrix (Fin n) (Fin n) ℝ) (x cur : Fin n → ℝ) (c : ℕ → ℝ) (v : Fin n) : ∀ t : ℕ,
    Near u (t + 3) (accFl fl F x cur c t v) (c 0 / 2 * x v + ∑ k ∈ Finset.Ico 1 (t + 2), c k * seqFl fl F x cur k v)
      (|c 0| / 2 * |x v| + ∑ k ∈ Finset.Ico 1 (t + 2), |c k| * |seqFl fl F x cur k v|)
  | 0 => by
    have h1 := (((Near.refl (u := u) (1 / 2 * c 0)).round hr).mul hr.nonneg (Near.refl (x v))).round hr
    have h2 := ((Near.refl (u := u) (c 1 * cur v)).round hr).mono hr.nonneg (show 0 + 1 ≤ 0 + 1 + 0 + 1 by omega) le_rfl
    have h3 := (h1.add h2).round hr
    have e : |1 / 2 * c 0| = |c 0| / 2 := by rw [abs_mul]; norm_num; ring
    rw [e, abs_mul (c 1)] at h3
    simp only [accFl, zero_add, show Finset.Ico 1 2 = {1} from rfl, Finset.sum_singleton, seqFl]
    rw [show c 0 / 2 = 1 / 2 * c 0 by ring]
    exact h3
  | t + 1 => by
    have ih := acc_near hr F x cur c v t
    have h2 := ((Near.refl (u := u) (c (t + 2) * seqFl fl F x cur (t + 2) v)).round hr).mono hr.nonneg (show 0 + 1 ≤ t + 3 by omega) le_rfl
    have h3 := (ih.add h2).round hr
    rw [abs_mul] at h3
    have e1 := Finset.sum_Ico_succ_top (show 1 ≤ t + 2 by omega) fun k => c k * seqFl fl F x cur k v
    have e2 := Finset.sum_Ico_succ_top (show 1 ≤ t + 2 by omega) fun k => |c k| * |seqFl fl F x cur k v|
    rw [show t + 1 + 2 = (t + 2) + 1 by omega, e1, e2, ← add_assoc, ← add_assoc]
    exact h3

/-- the exact vectors -/
theorem exact_len {A U : Matrix (Fin n) (Fin n) ℝ} {w : Fin n → ℝ} (hE : IsEigenPairs A w U) (hw : ∀ i, |w i| ≤ 1) (x : Fin n → ℝ) (k : ℕ) :
    len (aeval A (Chebyshev.T ℝ k) *ᵥ x) ≤ len x := by
  have hAU : Uᵀ * A = Matrix.diagonal w * Uᵀ := by
    have h3 : U * Uᵀ = 1 := mul_eq_one_comm.1 hE.orthonormal
    calc Uᵀ * A = Uᵀ * A * (U * Uᵀ) := by rw [h3, Matrix.mul_one]
      _ = Uᵀ * (A * U) * Uᵀ := by simp only [Matrix.mul_assoc]
      _ = Matrix.diagonal w * Uᵀ := by rw [hE.eig, ← Matrix.mul_assoc, hE.orthonormal, Matrix.one_mul]
  have hp : ∀ p : ℝ[X], Uᵀ * aeval A p = Matrix.diagonal (fun i => p.eval (w i)) * Uᵀ := fun p => by
    induction p using Polynomial.induction_on' with
    | add p q hp hq =>
      rw [map_add, Matrix.mul_add, hp, hq, ← Matrix.add_mul, Matrix.diagonal_add]
      simp [eval_add]
    | monomial d a =>
      have hpow : ∀ d : ℕ, Uᵀ * A ^ d = Matrix.diagonal (fun i => w i ^ d) * Uᵀ := fun d => by
        induction d with
        | zero => simp
        | succ d ih =>
          rw [pow_succ, ← Matrix.mul_assoc, ih, Matrix.mul_assoc, hAU, ← Matrix.mul_assoc, Matrix.diagonal_mul_diagonal]
          simp [pow_succ]
      rw [aeval_monomial, Algebra.algebraMap_eq_smul_one, Matrix.smul_mul, Matrix.one_mul, Matrix.mul_smul, hpow]
      rw [← Matrix.smul_mul, ← Matrix.diagonal_smul]
      congr 2
      funext i
      simp [eval_monomial]
  have hlen : ∀ x : Fin n → ℝ, len (Uᵀ *ᵥ x) = len x := fun x => by rw [← len_orth hE (Uᵀ *ᵥ x), coord hE]
  rw [← hlen, ← hlen x, Matrix.mulVec_mulVec, hp, ← Matrix.mulVec_mulVec]
  refine len_mono fun i => ?_
  rw [Matrix.mulVec_diagonal, abs_mul]
  exact mul_le_of_le_one_left (abs_nonneg _) (Chebyshev.abs_eval_T_real_le_one k (hw i))

theorem rescaled_pairs {L U : Matrix (Fin n) (Fin n) ℝ} {e : Fin n → ℝ} (h : IsEigenPairs L e U) (l : ℝ) : IsEigenPairs (rescaled L l) (fun i => 2 / l * e i - 1) U := by
  refine ⟨h.orthonormal, ?_⟩
  have : Matrix.diagonal (fun i => 2 / l * e i - 1) = (2 / l) • Matrix.diagonal e - 1 := by
    ext i j
    by_cases hij : i = j
    · subst hij; simp
    · simp [hij]
  unfold rescaled
  rw [this, Matrix.sub_mul, Matrix.mul_sub, Matrix.smul_mul, Matrix.mul_smul, h.eig, Matrix.one_mul, Matrix.mul_one]

/-- **the loop of cheby_op**: the rounding errors of one column -/
theorem loop_stable (hr : Rounds fl u) {L U : Matrix (Fin n) (Fin n) ℝ} {e : Fin n → ℝ} (hE : IsEigenPairs L e U) {l : ℝ} (hl : 0 < l) (hfl : fl l = l) (he : ∀ i, 0 ≤ e i ∧ e i ≤ l)
    {m : ℕ} (hm : ∀ v, (Finset.univ.filter fun w => L v w ≠ 0 ∨ v = w).card ≤ m) {β : ℝ} (hβ : 0 ≤ β)
    (hA : ∀ x : Fin n → ℝ, len (fun v => ∑ w, |rescaled L l v w| * |x w|) ≤ β * len x) {M : ℕ} (hM : 2 ≤ M) (hsmall : 2 * (M - 1) * M * (roundings u (m + 5) * (2 * β + 2)) ≤ 1)
    {ns q : ℕ} (c : Fin q → ℕ → ℝ) (X : Matrix (Fin n) (Fin ns) ℝ) (i : Fin q) (j : Fin ns) :
    len (fun v => (chebLoopFl fl L l M c X).r i v j - (chebLoop L l M c X).r i v j) ≤
      (2 * roundings u (M + 1) + 2 * (M - 1) * M * (roundings u (m + 5) * (2 * β + 2))) * (|c i 0| / 2 + ∑ k ∈ Finset.Ico 1 M, |c i k|) * len (fun v => X v j) := by
  obtain ⟨t, rfl⟩ : ∃ t, M = t + 2 := ⟨M - 2, by omega⟩
  set A := rescaled L l with hAdef
  set x : Fin n → ℝ := fun v => X v j with hx
  set F : Matrix (Fin n) (Fin n) ℝ := Matrix.of fun v w => fl (fl (2 / (l / 2)) * fl (L v w - if v = w then l / 2 else 0)) with hF
  set cur : Fin n → ℝ := fun v => fl (fl (dotFl fl (L v) x - fl (l / 2 * x v)) / (l / 2)) with hcur
  set η := roundings u (m + 5) * (2 * β + 2) with hη
  have hη0 : 0 ≤ η := mul_nonneg (roundings_nonneg hr.nonneg _) (by positivity)
  have hxl := len_nonneg x
  have hEA := rescaled_pairs hE l
  have hwA : ∀ i, |2 / l * e i - 1| ≤ 1 := fun i => by
    have h1 : 0 ≤ 2 / l * e i := mul_nonneg (by positivity) (he i).1
    have h2 : 2 / l * e i ≤ 2 := by
      rw [div_mul_eq_mul_div, div_le_iff₀ hl]
      linarith [(he i).2]
    rw [abs_le]
    constructor <;> linarith
  have h1 : ∀ v, (chebLoopFl fl L l (t + 2) c X).r i v j = accFl fl F x cur (c i) t v := fun v => by
    have e1 : fl (fl (l - 0) / 2) = l / 2 := by rw [sub_zero]; exact half_lmax hr hfl
    have e2 : fl (fl (l + 0) / 2) = l / 2 := by rw [add_zero]; exact half_lmax hr hfl
    have e3 : fl (l / 2 * 1) = l / 2 := by rw [mul_one, hr.half, hfl]
    unfold chebLoopFl
    simp only [e1, e2, e3, Nat.add_sub_cancel]
    rw [loop_columns]
    rfl
  set yh := seqFl fl F x cur with hyh
  set y : ℕ → Fin n → ℝ := fun k => aeval A (Chebyshev.T ℝ k) *ᵥ x with hy
  have h2 : ∀ v, (chebLoop L l (t + 2) c X).r i v j = c i 0 / 2 * x v + ∑ k ∈ Finset.Ico 1 (t + 2), c i k * y k v := fun v => by
    rw [chebLoop_eq L l hl.ne' (by omega)]
    unfold chebSeries
    rw [map_add, map_sum, Matrix.add_mul, Matrix.add_apply, aeval_C, Algebra.algebraMap_eq_smul_one, Matrix.smul_mul, Matrix.one_mul, Matrix.smul_apply, smul_eq_mul, Matrix.sum_mul, Matrix.sum_apply]
    congr 1
    refine Finset.sum_congr rfl fun k _ => ?_
    rw [map_mul, aeval_C, Algebra.algebraMap_eq_smul_one, Matrix.smul_mul, Matrix.one_mul, Matrix.smul_mul, Matrix.smul_apply, smul_eq_mul, Matrix.mul_apply]
    rfl
  have hylen : ∀ k, len (y k) ≤ len x := fun k => exact_len hEA hwA x k
  have hstab : ∀ k ≤ t + 1, len (yh k - y k) ≤ 2 * k * (k + 1) * η * len x := by
    refine recurrence_stable hEA hwA hη0 (K := t + 1) ?_ hylen ?_ ?_ ?_ ?_
    · refine le_trans (le_of_eq ?_) hsmall
      push_cast
      ring
    · simp only [hyh, seqFl, hy, Nat.cast_zero, Chebyshev.T_zero, map_one, Matrix.one_mulVec]
    · simp only [hyh, seqFl, hy, Nat.cast_one, Chebyshev.T_one, aeval_X]
      exact first_error hr hl hm hβ hA x
    · intro k
      simp only [hy]
      have : Chebyshev.T ℝ (k + 2 : ℕ) = 2 * Polynomial.X * Chebyshev.T ℝ (k + 1 : ℕ) - Chebyshev.T ℝ k := by
        have := Chebyshev.T_add_two ℝ k
        push_cast
        exact this
      rw [this, map_sub, map_mul, map_mul, aeval_X, Matrix.sub_mulVec, ← Matrix.mulVec_mulVec, map_ofNat]
      congr 1
      rw [show (OfNat.ofNat 2 : Matrix (Fin n) (Fin n) ℝ) = (2 : ℝ) • 1 by rw [← Algebra.algebraMap_eq_smul_one]; exact (map_ofNat _ 2).symm, Matrix.smul_mul, Matrix.one_mul, Matrix.smul_mulVec]
    · intro k
      have := step_error hr hl hm hβ hA (yh (k + 1)) (yh k)
      exact this
  have hsm : ∀ k ∈ Finset.Ico 1 (t + 2), 2 * (k : ℝ) * (k + 1) * η ≤ 2 * ((t + 2 : ℕ) - 1) * (t + 2 : ℕ) * η := fun k hk => by
    have hk2 := (Finset.mem_Ico.1 hk).2
    have : (k : ℝ) ≤ t + 1 := by exact_mod_cast (by omega : k ≤ t + 1)
    have h3 : 2 * (k : ℝ) * (k + 1) ≤ 2 * ((t + 2 : ℕ) - 1) * (t + 2 : ℕ) := by
      push_cast
      have : (0 : ℝ) ≤ k := by positivity
      nlinarith
    exact mul_le_mul_of_nonneg_right h3 hη0
  have hyhlen : ∀ k ∈ Finset.Ico 1 (t + 2), len (yh k) ≤ 2 * len x := fun k hk => by
    have h3 := hstab k (by have := (Finset.mem_Ico.1 hk).2; omega)
    have h4 := len_add (yh k - y k) (y k)
    rw [sub_add_cancel] at h4
    have h5 := mul_le_mul_of_nonneg_right ((hsm k hk).trans hsmall) hxl
    have := hylen k
    linarith
  -- the accumulation
  have hacc : len (fun v => accFl fl F x cur (c i) t v - (c i 0 / 2 * x v + ∑ k ∈ Finset.Ico 1 (t + 2), c i k * yh k v)) ≤
      roundings u (t + 2 + 1) * (2 * ((|c i 0| / 2 + ∑ k ∈ Finset.Ico 1 (t + 2), |c i k|) * len x)) := by
    refine (len_bound (roundings_nonneg hr.nonneg _) (fun v => (acc_near hr F x cur (c i) v t).1) fun v => by positivity).trans ?_
    refine mul_le_mul_of_nonneg_left ?_ (roundings_nonneg hr.nonneg _)
    have e : (fun v => |c i 0| / 2 * |x v| + ∑ k ∈ Finset.Ico 1 (t + 2), |c i k| * |seqFl fl F x cur k v|) =
        (|c i 0| / 2) • (fun v => |x v|) + ∑ k ∈ Finset.Ico 1 (t + 2), |c i k| • fun v => |yh k v| := by
      funext v
      simp [Finset.sum_apply, hyh]
    rw [e]
    refine (len_add _ _).trans ?_
    rw [len_smul, abs_of_nonneg (by positivity), len_abs]
    have h3 : len (∑ k ∈ Finset.Ico 1 (t + 2), |c i k| • fun v => |yh k v|) ≤ ∑ k ∈ Finset.Ico 1 (t + 2), |c i k| * (2 * len x) :=
      (len_sum _ _).trans (Finset.sum_le_sum fun k hk => by
        rw [len_smul, abs_abs, len_abs]
        exact mul_le_mul_of_nonneg_left (hyhlen k hk) (abs_nonneg _))
    rw [← Finset.sum_mul] at h3
    have : 0 ≤ |c i 0| / 2 * len x := by positivity
    nlinarith
  have hterms : len (fun v => (c i 0 / 2 * x v + ∑ k ∈ Finset.Ico 1 (t + 2), c i k * yh k v) - (c i 0 / 2 * x v + ∑ k ∈ Finset.Ico 1 (t + 2), c i k * y k v)) ≤
      2 * ((t + 2 : ℕ) - 1) * (t + 2 : ℕ) * η * ((|c i 0| / 2 + ∑ k ∈ Finset.Ico 1 (t + 2), |c i k|) * len x) := by
    have e : (fun v => (c i 0 / 2 * x v + ∑ k ∈ Finset.Ico 1 (t + 2), c i k * yh k v) - (c i 0 / 2 * x v + ∑ k ∈ Finset.Ico 1 (t + 2), c i k * y k v)) =
        ∑ k ∈ Finset.Ico 1 (t + 2), c i k • (yh k - y k) := by
      funext v
      rw [Finset.sum_apply, add_sub_add_left_eq_sub, ← Finset.sum_sub_distrib]
      exact Finset.sum_congr rfl fun k _ => by simp [mul_sub]
    rw [e]
    have h3 : len (∑ k ∈ Finset.Ico 1 (t + 2), c i k • (yh k - y k)) ≤ ∑ k ∈ Finset.Ico 1 (t + 2), |c i k| * (2 * ((t + 2 : ℕ) - 1) * (t + 2 : ℕ) * η * len x) :=
      (len_sum _ _).trans (Finset.sum_le_sum fun k hk => by
        rw [len_smul]
        refine mul_le_mul_of_nonneg_left ?_ (abs_nonneg _)
        exact (hstab k (by have := (Finset.mem_Ico.1 hk).2; omega)).trans (mul_le_mul_of_nonneg_right (hsm k hk) hxl))
    rw [← Finset.sum_mul] at h3
    have h4 : (0 : ℝ) ≤ 2 * ((t + 2 : ℕ) - 1) * (t + 2 : ℕ) * η := by
      push_cast
      have : (0 : ℝ) ≤ (t : ℝ) + 2 - 1 := by linarith [(Nat.cast_nonneg t : (0 : ℝ) ≤ t)]
      positivity
    have h5 : 0 ≤ |c i 0| / 2 * len x := by positivity
    nlinarith
  have hsplit : (fun v => (chebLoopFl fl L l (t + 2) c X).r i v j - (chebLoop L l (t + 2) c X).r i v j) =
      (fun v => accFl fl F x cur (c i) t v - (c i 0 / 2 * x v + ∑ k ∈ Finset.Ico 1 (t + 2), c i k * yh k v)) +
      fun v => (c i 0 / 2 * x v + ∑ k ∈ Finset.Ico 1 (t + 2), c i k * yh k v) - (c i 0 / 2 * x v + ∑ k ∈ Finset.Ico 1 (t + 2), c i k * y k v) := by
    funext v
    rw [h1, h2, Pi.add_apply]
    ring
  rw [hsplit]
  refine (len_add _ _).trans ((add_le_add hacc hterms).trans (le_of_eq ?_))
  ring

/-- the sizes of the entries of a symmetric matrix with bounded rows -/
theorem schur {B : Matrix (Fin n) (Fin n) ℝ} (hB : ∀ v w, 0 ≤ B v w) (hs : ∀ v w, B v w = B w v) {b : ℝ} (hb : 0 ≤ b) (hrow : ∀ v, ∑ w, B v w ≤ b) (x : Fin n → ℝ) :
    len (fun v => ∑ w, B v w * |x w|) ≤ b * len x := by
  rw [← abs_of_nonneg hb, ← len_smul]
  refine Real.sqrt_le_sqrt ?_
  have h1 : ∀ v, (∑ w, B v w * |x w|) ^ 2 ≤ b * ∑ w, B v w * x w ^ 2 := fun v => by
    have h2 := Finset.sum_mul_sq_le_sq_mul_sq Finset.univ (fun w => √(B v w)) fun w => √(B v w) * |x w|
    have e1 : ∀ w, √(B v w) * (√(B v w) * |x w|) = B v w * |x w| := fun w => by rw [← mul_assoc, Real.mul_self_sqrt (hB v w)]
    have e2 : ∀ w, √(B v w) ^ 2 = B v w := fun w => Real.sq_sqrt (hB v w)
    have e3 : ∀ w, (√(B v w) * |x w|) ^ 2 = B v w * x w ^ 2 := fun w => by rw [mul_pow, e2, sq_abs]
    simp only [e1, e2, e3] at h2
    exact h2.trans (mul_le_mul_of_nonneg_right (hrow v) (Finset.sum_nonneg fun w _ => mul_nonneg (hB v w) (sq_nonneg _)))
  calc ∑ v, (∑ w, B v w * |x w|) ^ 2 ≤ ∑ v, b * ∑ w, B v w * x w ^ 2 := Finset.sum_le_sum fun v _ => h1 v
    _ = b * ∑ w, (∑ v, B v w) * x w ^ 2 := by
      rw [← Finset.mul_sum, Finset.sum_comm]
      simp only [Finset.sum_mul]
    _ ≤ b * ∑ w, b * x w ^ 2 := by
      refine mul_le_mul_of_nonneg_left (Finset.sum_le_sum fun w _ => mul_le_mul_of_nonneg_right ?_ (sq_nonneg _)) hb
      simp only [hs _ w]
      exact hrow w
    _ = ∑ v, (b • x) v ^ 2 := by
      rw [Finset.mul_sum]
      exact Finset.sum_congr rfl fun v _ => by simp only [Pi.smul_apply, smul_eq_mul]; ring

theorem sqrt_bound {A U : Matrix (Fin n) (Fin n) ℝ} {w : Fin n → ℝ} (hE : IsEigenPairs A w U) (hw : ∀ i, |w i| ≤ 1) (x : Fin n → ℝ) :
    len (fun v => ∑ w, |A v w| * |x w|) ≤ √n * len x := by
  have h1 : frob A ≤ n := by
    have h2 := frob_rotate hE.orthonormal hE.orthonormal A
    rw [Matrix.mul_assoc, hE.eig, ← Matrix.mul_assoc, hE.orthonormal, Matrix.one_mul] at h2
    rw [← h2]
    unfold frob
    calc ∑ i, ∑ j, Matrix.diagonal w i j ^ 2 = ∑ i, w i ^ 2 := by
          refine Finset.sum_congr rfl fun i _ => ?_
          rw [Finset.sum_eq_single i (fun j _ hj => by simp [Matrix.diagonal_apply_ne _ (Ne.symm hj)]) (by simp), Matrix.diagonal_apply_eq]
      _ ≤ ∑ i : Fin n, (1 : ℝ) := Finset.sum_le_sum fun i _ => by rw [← sq_abs]; exact pow_le_one₀ (abs_nonneg _) (hw i)
      _ = n := by simp
  have h3 := frob_mulVec (Matrix.of fun v w => |A v w|) fun w => |x w|
  have h4 : frob (Matrix.of fun v w => |A v w|) = frob A := by simp [frob, sq_abs]
  rw [h4] at h3
  unfold len
  rw [← Real.sqrt_mul (by positivity)]
  refine Real.sqrt_le_sqrt ?_
  simp only [sq_abs] at h3
  exact (le_of_eq (by simp only [Matrix.mulVec, dotProduct, Matrix.of_apply])).trans (h3.trans (mul_le_mul_of_nonneg_right h1 (Finset.sum_nonneg fun _ _ => sq_nonneg _)))

end Rounding

section

variable {u : ℝ} {fl : ℝ → ℝ} {S : Solvers n} {g : Graph n ℝ} {s : GState n} {l : ℝ}

theorem Rounding.cheby_core (hr : Rounds fl u) (h : Ready S g s) (hl : (s.getLmax S).1 = .ok (some (.fin l))) (hpos : 0 < l) (hfl : fl l = l) (hup : ∀ t, IsEigenvalue s.L t → t ≤ l)
    {m : ℕ} (hm : ∀ v, (Finset.univ.filter fun w => s.L v w ≠ 0 ∨ v = w).card ≤ m) {β : ℝ} (hβ : 0 ≤ β)
    (hA : ∀ x : Fin n → ℝ, len (fun v => ∑ w, |rescaled s.L l v w| * |x w|) ≤ β * len x) {q M ns : ℕ} (hM : 2 ≤ M)
    (hsmall : 2 * (M - 1) * M * (roundings u (m + 5) * (2 * β + 2)) ≤ 1) (c : Fin q → Fin M → ℝ) (X : Matrix (Fin n) (Fin ns) ℝ) :
    ∃ R Rh, (chebyOp S c X s).1 = .ok R ∧ (chebyOpFl fl S c X s).1 = .ok Rh ∧ ∀ i j,
      len (fun v => Rh (finProdFinEquiv (i, v)) j - R (finProdFinEquiv (i, v)) j) ≤
        (2 * roundings u (M + 1) + 2 * (M - 1) * M * (roundings u (m + 5) * (2 * β + 2))) * (∑ k, |c i k|) * len (fun v => X v j) := by
  have h' : Bank.lmaxNum S s = (.ok l, (s.getLmax S).2) := lmaxNum_of hl
  have hL : (s.getLmax S).2.L = s.L := (lmaxNum_stored h').2.1
  obtain ⟨e, U, -, hE⟩ := h.basis
  have he : ∀ i, 0 ≤ e i ∧ e i ≤ l := fun i => ⟨h.eig_nonneg (hE.isEigenvalue i), hup _ (hE.isEigenvalue i)⟩
  have hz : ¬ fl (fl (l - 0) / 2) = 0 := by rw [sub_zero, half_lmax hr hfl]; linarith
  have hz' : ¬ l / 2 = 0 := by linarith
  have e1 : (chebyOp S c X s).1 = .ok (Matrix.of fun row j => (chebLoop s.L l M (fun i k => if h : k < M then c i ⟨k, h⟩ else 0) X).r (finProdFinEquiv.symm row).1 (finProdFinEquiv.symm row).2 j) := by
    unfold chebyOp
    rw [if_neg (by omega), h']
    simp only [if_neg hz', hL]
  have e2 : (chebyOpFl fl S c X s).1 = .ok (Matrix.of fun row j => (chebLoopFl fl s.L l M (fun i k => if h : k < M then c i ⟨k, h⟩ else 0) X).r (finProdFinEquiv.symm row).1 (finProdFinEquiv.symm row).2 j) := by
    unfold chebyOpFl
    rw [if_neg (by omega), h']
    simp only [if_neg hz, hL]
  refine ⟨_, _, e1, e2, fun i j => ?_⟩
  · simp only [Matrix.of_apply, Equiv.symm_apply_apply]
    refine (loop_stable hr hE hpos hfl he hm hβ hA hM hsmall _ X i j).trans ?_
    refine mul_le_mul_of_nonneg_right (mul_le_mul_of_nonneg_left ?_ ?_) (len_nonneg _)
    · have hsum : ∑ k, |c i k| = |if h : 0 < M then c i ⟨0, h⟩ else 0| + ∑ k ∈ Finset.Ico 1 M, |if h : k < M then c i ⟨k, h⟩ else 0| := by
        have h0 := Fin.sum_univ_eq_sum_range (n := M) fun k => |if h : k < M then c i ⟨k, h⟩ else 0|
        simp only [Fin.is_lt, dite_true, Fin.eta] at h0
        rw [h0, Finset.range_eq_Ico, Finset.sum_eq_sum_Ico_succ_bot (by omega)]
      have : 0 ≤ |if h : 0 < M then c i ⟨0, h⟩ else 0| := abs_nonneg _
      rw [hsum]
      exact add_le_add (by linarith) le_rfl
    · have h1 : (2 : ℝ) ≤ M := by exact_mod_cast hM
      have h2 := roundings_nonneg hr.nonneg (M + 1)
      have h3 := roundings_nonneg hr.nonneg (m + 5)
      have h4 : (0 : ℝ) ≤ 2 * (M - 1) * M := by nlinarith
      positivity

/-- **C142** Rounding errors of Chebyshev filtering: with a relative error `u` in each operation, at most `m` entries per row of the Laplacian, and a bound `l` of the frequencies that is a
floating-point number, the result differs from the exact one by at most a multiple of the length of the signal, of the sum of the absolute values of the coefficients and of `u`: the errors
grow with the square of the order, not exponentially. -/
theorem C142_cheby (hr : Rounds fl u) (h : Ready S g s) (hl : (s.getLmax S).1 = .ok (some (.fin l))) (hpos : 0 < l) (hfl : fl l = l) (hup : ∀ t, IsEigenvalue s.L t → t ≤ l)
    {m : ℕ} (hm : ∀ v, (Finset.univ.filter fun w => s.L v w ≠ 0 ∨ v = w).card ≤ m) {q M ns : ℕ} (hM : 2 ≤ M)
    (hsmall : 2 * (M - 1) * M * (roundings u (m + 5) * (2 * √n + 2)) ≤ 1) (c : Fin q → Fin M → ℝ) (X : Matrix (Fin n) (Fin ns) ℝ) :
    ∃ R Rh, (chebyOp S c X s).1 = .ok R ∧ (chebyOpFl fl S c X s).1 = .ok Rh ∧ ∀ i j,
      len (fun v => Rh (finProdFinEquiv (i, v)) j - R (finProdFinEquiv (i, v)) j) ≤
        (2 * roundings u (M + 1) + 2 * (M - 1) * M * (roundings u (m + 5) * (2 * √n + 2))) * (∑ k, |c i k|) * len (fun v => X v j) := by
  obtain ⟨e, U, -, hE⟩ := h.basis
  refine cheby_core hr h hl hpos hfl hup hm (Real.sqrt_nonneg _) (fun x => sqrt_bound (rescaled_pairs hE l) (fun i => ?_) x) hM hsmall c X
  have h1 : 0 ≤ 2 / l * e i := mul_nonneg (by positivity) (h.eig_nonneg (hE.isEigenvalue i))
  have h2 : 2 / l * e i ≤ 2 := by
    rw [div_mul_eq_mul_div, div_le_iff₀ hpos]
    linarith [hup _ (hE.isEigenvalue i)]
  rw [abs_le]
  constructor <;> linarith

/-- **C142** For the combinatorial Laplacian the bound does not depend on the number of vertices: `m` counts a vertex and its neighbors. -/
theorem C142_combinatorial (hr : Rounds fl u) (h : Ready S g s) (hc : s.lapType = .combinatorial) (hl : (s.getLmax S).1 = .ok (some (.fin l))) (hpos : 0 < l) (hfl : fl l = l)
    (hup : ∀ t, IsEigenvalue s.L t → t ≤ l) {m : ℕ} (hm : ∀ v, (Finset.univ.filter fun w => g.W.dense v w ≠ 0 ∨ g.W.dense w v ≠ 0 ∨ v = w).card ≤ m) {q M ns : ℕ} (hM : 2 ≤ M)
    (hsmall : 16 * (M - 1) * M * roundings u (m + 5) ≤ 1) (c : Fin q → Fin M → ℝ) (X : Matrix (Fin n) (Fin ns) ℝ) :
    ∃ R Rh, (chebyOp S c X s).1 = .ok R ∧ (chebyOpFl fl S c X s).1 = .ok Rh ∧ ∀ i j,
      len (fun v => Rh (finProdFinEquiv (i, v)) j - R (finProdFinEquiv (i, v)) j) ≤
        (2 * roundings u (M + 1) + 16 * (M - 1) * M * roundings u (m + 5)) * (∑ k, |c i k|) * len (fun v => X v j) := by
  have hL := h.comb hc
  have hnn : ∀ v w, 0 ≤ wsym g.W.dense v w := fun v w => by
    unfold wsym
    have := h.nonneg v w
    have := h.nonneg w v
    linarith
  have hoff : ∀ v w, v ≠ w → s.L v w = - wsym g.W.dense v w := fun v w hvw => by
    rw [hL]; simp [combLap, hvw]
  have hdiag : ∀ v, s.L v v = ∑ w ∈ Finset.univ.erase v, wsym g.W.dense v w := fun v => by
    have h0 := congrFun (combLap_const g.W.dense 1) v
    simp only [Matrix.mulVec, dotProduct, mul_one, Pi.zero_apply] at h0
    rw [← hL, ← Finset.add_sum_erase _ _ (Finset.mem_univ v)] at h0
    rw [Finset.sum_congr rfl fun w hw => hoff v w (Finset.ne_of_mem_erase hw).symm, Finset.sum_neg_distrib] at h0
    linarith
  have hd0 : ∀ v, 0 ≤ s.L v v := fun v => by rw [hdiag]; exact Finset.sum_nonneg fun w _ => hnn v w
  have hdl : ∀ v, s.L v v ≤ l := fun v => by
    have := quad_le_of_eig_le (fun i j => by rw [hL]; exact combLap_symm _ i j) hup (Pi.single v 1)
    simpa using this
  have hl2 : 0 < 2 / l := by positivity
  have hrow : ∀ v, ∑ w, |rescaled s.L l v w| ≤ 3 := fun v => by
    rw [← Finset.add_sum_erase _ _ (Finset.mem_univ v)]
    have h1 : ∑ w ∈ Finset.univ.erase v, |rescaled s.L l v w| = 2 / l * s.L v v := by
      rw [hdiag, Finset.mul_sum]
      refine Finset.sum_congr rfl fun w hw => ?_
      have hvw := (Finset.ne_of_mem_erase hw).symm
      unfold rescaled
      rw [Matrix.sub_apply, Matrix.smul_apply, Matrix.one_apply_ne hvw, hoff v w hvw, sub_zero, smul_eq_mul, mul_neg, abs_neg, abs_of_nonneg (mul_nonneg hl2.le (hnn v w))]
    have h2 : |rescaled s.L l v v| ≤ 1 := by
      unfold rescaled
      rw [Matrix.sub_apply, Matrix.smul_apply, Matrix.one_apply_eq, smul_eq_mul]
      have h3 : 0 ≤ 2 / l * s.L v v := mul_nonneg hl2.le (hd0 v)
      have h4 : 2 / l * s.L v v ≤ 2 := by
        rw [div_mul_eq_mul_div, div_le_iff₀ hpos]
        linarith [hdl v]
      rw [abs_le]
      constructor <;> linarith
    have h4 : 2 / l * s.L v v ≤ 2 := by
      rw [div_mul_eq_mul_div, div_le_iff₀ hpos]
      linarith [hdl v]
    rw [h1]
    linarith
  have hsym : ∀ v w, |rescaled s.L l v w| = |rescaled s.L l w v| := fun v w => by
    unfold rescaled
    rw [Matrix.sub_apply, Matrix.sub_apply, Matrix.smul_apply, Matrix.smul_apply, hL, combLap_symm, Matrix.one_apply, Matrix.one_apply]
    congr 2
    exact if_congr eq_comm rfl rfl
  have := cheby_core hr h hl hpos hfl hup (m := m) (fun v => le_trans (Finset.card_le_card fun w hw => ?_) (hm v)) (β := 3) (by norm_num)
    (fun x => Rounding.schur (B := Matrix.of fun v w => |rescaled s.L l v w|) (fun v w => abs_nonneg _) hsym (by norm_num) hrow x) hM (le_trans (le_of_eq (by ring)) hsmall) c X
  · obtain ⟨R, Rh, h1, h2, h3⟩ := this
    exact ⟨R, Rh, h1, h2, fun i j => (h3 i j).trans (le_of_eq (by ring))⟩
  · simp only [Finset.mem_filter, Finset.mem_univ, true_and] at hw ⊢
    by_contra hno
    simp only [not_or, not_not] at hno
    rcases hw with hw | hw
    · refine hw ?_
      rw [hoff v w hno.2.2]
      simp [wsym, hno.1, hno.2.1]
    · exact hno.2.2 hw

end

/-! ### the size of the errors -/

/-- **C142** The relative error of `m` operations is of the order of `m` times the one of a single operation. -/
theorem C142_unit {u : ℝ} (hu : 0 ≤ u) {m : ℕ} (h : m * u ≤ 1) : m * u ≤ roundings u m ∧ roundings u m ≤ 2 * (m * u) := by
  unfold roundings
  constructor
  · have := one_add_mul_le_pow (show (-2 : ℝ) ≤ u by linarith) m
    linarith
  · have h1 : (1 + u) ^ m ≤ Real.exp (m * u) := by
      rw [Real.exp_nat_mul]
      exact pow_le_pow_left₀ (by linarith) (by linarith [Real.add_one_le_exp u]) m
    have h2 := Real.abs_exp_sub_one_le (x := m * u) (by rw [abs_of_nonneg (by positivity)]; exact h)
    rw [abs_of_nonneg (show 0 ≤ (m : ℝ) * u by positivity)] at h2
    linarith [le_abs_self (Real.exp (m * u) - 1)]

namespace Rounding

theorem log_half {x : ℝ} (hx : x ≠ 0) : Int.log 2 |x / 2| = Int.log 2 |x| - 1 := by
  have h0 : 0 < |x| := abs_pos.2 hx
  have h1 : |x / 2| = |x| / 2 := by rw [abs_div, abs_two]
  have h2 := Int.zpow_log_le_self (b := 2) (r := |x|) (by norm_num) h0
  have h3 := Int.lt_zpow_succ_log_self (b := 2) (by norm_num) |x|
  rw [h1]
  refine le_antisymm ?_ ?_
  · have : |x| / 2 < ((2 : ℕ) : ℝ) ^ (Int.log 2 |x|) := by
      rw [zpow_add_one₀ (by norm_num)] at h3
      push_cast at h3 ⊢
      linarith
    have := (Int.lt_zpow_iff_log_lt (b := 2) (by norm_num) (by positivity)).1 this
    omega
  · refine (Int.zpow_le_iff_le_log (b := 2) (by norm_num) (by positivity)).1 ?_
    rw [zpow_sub_one₀ (by norm_num)]
    push_cast at h2 ⊢
    linarith

end Rounding

/-- **C142** Rounding to the nearest number with `p` binary digits satisfies what is assumed, with `u = 2 ^ -p`; it leaves the integers below `2 ^ p` unchanged. -/
theorem C142_nearest (p : ℕ) : Rounds (nearest p) ((2 : ℝ) ^ (-(p : ℤ))) ∧ ∀ z : ℤ, |z| < 2 ^ p → nearest p z = z := by
  have key : ∀ k : ℤ, (2 : ℝ) ^ ((p : ℤ) - 1 - k) * (2 : ℝ) ^ (k - ((p : ℤ) - 1)) = 1 := fun k => by
    rw [← zpow_add₀ (by norm_num)]
    simp
  refine ⟨⟨by positivity, fun x => ?_, fun x => ?_⟩, fun z hz => ?_⟩
  · rcases eq_or_ne x 0 with rfl | hx
    · simp [nearest]
    · have h0 : 0 < |x| := abs_pos.2 hx
      have h2 := Int.zpow_log_le_self (b := 2) (r := |x|) (by norm_num) h0
      push_cast at h2
      unfold nearest
      set k := Int.log 2 |x|
      have h3 := abs_sub_round (x * (2 : ℝ) ^ ((p : ℤ) - 1 - k))
      have h4 : (round (x * (2 : ℝ) ^ ((p : ℤ) - 1 - k)) : ℝ) * (2 : ℝ) ^ (k - ((p : ℤ) - 1)) - x =
          - ((x * (2 : ℝ) ^ ((p : ℤ) - 1 - k) - round (x * (2 : ℝ) ^ ((p : ℤ) - 1 - k))) * (2 : ℝ) ^ (k - ((p : ℤ) - 1))) := by
        have := key k
        linear_combination (x : ℝ) * this
      rw [h4, abs_neg, abs_mul, abs_of_pos (show (0 : ℝ) < 2 ^ (k - ((p : ℤ) - 1)) by positivity)]
      have h5 : (2 : ℝ) ^ (k - ((p : ℤ) - 1)) = 2 * (2 ^ (-(p : ℤ)) * 2 ^ k) := by
        rw [← zpow_add₀ (by norm_num), ← zpow_one_add₀ (by norm_num)]
        congr 1
        ring
      rw [h5]
      have h6 : (0 : ℝ) < 2 ^ (-(p : ℤ)) := by positivity
      have h7 : (0 : ℝ) < 2 ^ k := by positivity
      have h8 := mul_le_mul_of_nonneg_right h3 (show (0 : ℝ) ≤ 2 * (2 ^ (-(p : ℤ)) * 2 ^ k) by positivity)
      have h9 := mul_le_mul_of_nonneg_left h2 h6.le
      linarith
  · rcases eq_or_ne x 0 with rfl | hx
    · simp [nearest]
    · unfold nearest
      rw [log_half hx]
      have e1 : x / 2 * (2 : ℝ) ^ ((p : ℤ) - 1 - (Int.log 2 |x| - 1)) = x * (2 : ℝ) ^ ((p : ℤ) - 1 - Int.log 2 |x|) := by
        rw [show (p : ℤ) - 1 - (Int.log 2 |x| - 1) = (p : ℤ) - 1 - Int.log 2 |x| + 1 by ring, zpow_add_one₀ (by norm_num)]
        ring
      rw [e1, show Int.log 2 |x| - 1 - ((p : ℤ) - 1) = Int.log 2 |x| - ((p : ℤ) - 1) - 1 by ring, zpow_sub_one₀ (by norm_num)]
      ring
  · rcases eq_or_ne z 0 with rfl | hx
    · simp [nearest]
    · have h0 : 0 < |(z : ℝ)| := abs_pos.2 (by exact_mod_cast hx)
      have h1 : |(z : ℝ)| < ((2 : ℕ) : ℝ) ^ (p : ℤ) := by
        rw [zpow_natCast]
        exact_mod_cast hz
      have h2 := (Int.lt_zpow_iff_log_lt (b := 2) (by norm_num) h0).1 h1
      obtain ⟨d, hd⟩ : ∃ d : ℕ, (p : ℤ) - 1 - Int.log 2 |(z : ℝ)| = d := ⟨((p : ℤ) - 1 - Int.log 2 |(z : ℝ)|).toNat, by omega⟩
      have h3 := key (Int.log 2 |(z : ℝ)|)
      unfold nearest
      rw [hd] at h3 ⊢
      rw [show (z : ℝ) * (2 : ℝ) ^ (d : ℤ) = ((z * 2 ^ d : ℤ) : ℝ) by push_cast; rw [zpow_natCast], round_intCast]
      push_cast
      rw [mul_assoc, ← zpow_natCast, h3, mul_one]

/-! ### the Laplacian -/

section

variable {u : ℝ} {fl : ℝ → ℝ} {W : Sp n n ℝ} {m : ℕ}

namespace Rounding

theorem sum_near (hr : Rounds fl u) {a : Fin n → ℝ} (ha : ∀ j, 0 ≤ a j) (hm : (Finset.univ.filter fun j => a j ≠ 0).card ≤ m) :
    Near u (m + 1) (dotFl fl a fun _ => 1) (∑ j, a j) (∑ j, a j) := by
  have h := dot_near hr (fun j => Near.refl (u := u) (a j)) hm fun _ => 1
  simp only [mul_one, abs_one, abs_of_nonneg (ha _)] at h
  exact h.mono hr.nonneg (by omega) le_rfl

theorem dw_near (hr : Rounds fl u) (hnn : NonnegW W.dense) (hrow : ∀ v, (Finset.univ.filter fun w => W.dense v w ≠ 0).card ≤ m)
    (hcol : ∀ v, (Finset.univ.filter fun w => W.dense w v ≠ 0).card ≤ m) (v : Fin n) : Near u (m + 3) (dwFl fl W v) (wdeg W.dense v) (wdeg W.dense v) := by
  rw [← dw_eq]
  have h1 := sum_near hr (fun j => hnn j v) (hcol v)
  have h2 := sum_near hr (fun j => hnn v j) (hrow v)
  unfold dwFl dw
  split
  · exact (((h1.add h2).round hr).div (by norm_num)).round hr
  · exact h1.mono hr.nonneg (by omega) le_rfl

theorem sym_near (hr : Rounds fl u) (hnn : NonnegW W.dense) (v w : Fin n) : Near u 2 (symFl fl W v w) (wsym W.dense v w) (wsym W.dense v w) := by
  have h1 : ∀ v w, Near u 0 (W.dense v w) (W.dense v w) (W.dense v w) := fun v w => by
    have := Near.refl (u := u) (W.dense v w)
    rwa [abs_of_nonneg (hnn v w)] at this
  unfold symFl
  split
  · exact ((((h1 v w).add (h1 w v)).round hr).div (by norm_num)).round hr
  · rename_i hd
    have hu : Undirected W.dense := by rw [← isDirected_eq_false_iff]; simpa using hd
    have e : wsym W.dense v w = W.dense v w := by
      unfold wsym
      rw [hu w v]
      ring
    rw [e]
    exact (h1 v w).mono hr.nonneg (by omega) le_rfl

end Rounding

/-- **C142** The entries of the combinatorial Laplacian, computed with a relative error `u` in each operation: each is exact up to the rounding of at most `m + 4` operations, where `m`
bounds the number of in-neighbors and of out-neighbors of a vertex. -/
theorem C142_laplacian (hr : Rounds fl u) (hnn : NonnegW W.dense) (hrow : ∀ v, (Finset.univ.filter fun w => W.dense v w ≠ 0).card ≤ m)
    (hcol : ∀ v, (Finset.univ.filter fun w => W.dense w v ≠ 0).card ≤ m) (v w : Fin n) :
    |combLapFl fl W v w - combLap W.dense v w| ≤ roundings u (m + 4) * ((if v = w then wdeg W.dense v else 0) + wsym W.dense v w) ∧ combLapFl fl W v w = combLapFl fl W w v := by
  constructor
  · have h1 : Near u (m + 3) (if v = w then dwFl fl W v else 0) (if v = w then wdeg W.dense v else 0) (if v = w then wdeg W.dense v else 0) := by
      split
      · exact dw_near hr hnn hrow hcol v
      · exact ⟨by simp, by simp⟩
    exact ((h1.sub ((sym_near hr hnn v w).mono hr.nonneg (by omega) le_rfl)).round hr).1
  · have hs : symFl fl W v w = symFl fl W w v := by
      unfold symFl
      split
      · rw [add_comm]
      · rename_i hd
        have hu : Undirected W.dense := by rw [← isDirected_eq_false_iff]; simpa using hd
        exact hu v w
    unfold combLapFl
    rw [Matrix.of_apply, Matrix.of_apply, hs]
    by_cases hvw : v = w
    · rw [hvw]
    · rw [if_neg hvw, if_neg (Ne.symm hvw)]

/-- **C142** The frequencies of the Laplacian that is computed differ from the exact ones by at most twice the largest weighted degree times the relative error of `m + 4` operations. -/
theorem C142_frequencies (hr : Rounds fl u) (hnn : NonnegW W.dense) (hrow : ∀ v, (Finset.univ.filter fun w => W.dense v w ≠ 0).card ≤ m)
    (hcol : ∀ v, (Finset.univ.filter fun w => W.dense w v ≠ 0).card ≤ m) {d : ℝ} (hd : ∀ v, wdeg W.dense v ≤ d) {e e' : Fin n → ℝ} {U U' : Matrix (Fin n) (Fin n) ℝ}
    (h : IsEigenPairs (combLap W.dense) e U) (h' : IsEigenPairs (combLapFl fl W) e' U') (he : Monotone e) (he' : Monotone e') (k : Fin n) :
    |e' k - e k| ≤ 2 * d * roundings u (m + 4) := by
  set γ := roundings u (m + 4) with hγ
  have hγ0 : 0 ≤ γ := roundings_nonneg hr.nonneg _
  have hquad : ∀ x : Fin n → ℝ, |x ⬝ᵥ (combLapFl fl W *ᵥ x) - x ⬝ᵥ (combLap W.dense *ᵥ x)| ≤ 2 * d * γ * ∑ v, x v ^ 2 := fun x => by
    have e1 : x ⬝ᵥ (combLapFl fl W *ᵥ x) - x ⬝ᵥ (combLap W.dense *ᵥ x) = ∑ v, ∑ w, x v * ((combLapFl fl W v w - combLap W.dense v w) * x w) := by
      simp only [dotProduct, Matrix.mulVec, Finset.mul_sum, ← Finset.sum_sub_distrib]
      refine Finset.sum_congr rfl fun v _ => Finset.sum_congr rfl fun w _ => by ring
    rw [e1]
    calc |∑ v, ∑ w, x v * ((combLapFl fl W v w - combLap W.dense v w) * x w)|
        ≤ ∑ v, ∑ w, |x v * ((combLapFl fl W v w - combLap W.dense v w) * x w)| :=
          (Finset.abs_sum_le_sum_abs _ _).trans (Finset.sum_le_sum fun v _ => Finset.abs_sum_le_sum_abs _ _)
      _ ≤ ∑ v, ∑ w, γ * ((if v = w then wdeg W.dense v * x v ^ 2 else 0) + wsym W.dense v w * (x v ^ 2 / 2 + x w ^ 2 / 2)) := by
        refine Finset.sum_le_sum fun v _ => Finset.sum_le_sum fun w _ => ?_
        have h1 := (C142_laplacian hr hnn hrow hcol v w).1
        rw [← hγ] at h1
        rw [abs_mul, abs_mul]
        have h2 := mul_le_mul_of_nonneg_right h1 (show 0 ≤ |x v| * |x w| by positivity)
        have h3 : |x v| * |x w| ≤ x v ^ 2 / 2 + x w ^ 2 / 2 := by
          rw [← sq_abs (x v), ← sq_abs (x w)]
          nlinarith [sq_nonneg (|x v| - |x w|)]
        have h4 := mul_le_mul_of_nonneg_left h3 (wsym_nonneg hnn v w)
        have h5 : ((if v = w then wdeg W.dense v else 0) + wsym W.dense v w) * (|x v| * |x w|) ≤ (if v = w then wdeg W.dense v * x v ^ 2 else 0) + wsym W.dense v w * (x v ^ 2 / 2 + x w ^ 2 / 2) := by
          by_cases hvw : v = w
          · subst hvw
            rw [if_pos rfl, if_pos rfl, add_mul]
            have : |x v| * |x v| = x v ^ 2 := by rw [← sq, sq_abs]
            rw [this] at h4 ⊢
            linarith
          · rw [if_neg hvw, if_neg hvw, zero_add, zero_add]
            exact h4
        calc |x v| * (|combLapFl fl W v w - combLap W.dense v w| * |x w|) = |combLapFl fl W v w - combLap W.dense v w| * (|x v| * |x w|) := by ring
          _ ≤ _ := h2
          _ ≤ _ := by rw [mul_assoc]; exact mul_le_mul_of_nonneg_left h5 hγ0
      _ = γ * (2 * ∑ v, wdeg W.dense v * x v ^ 2) := by
        simp only [← Finset.mul_sum, Finset.sum_add_distrib, mul_add]
        have a1 : ∑ v, ∑ w, (if v = w then wdeg W.dense v * x v ^ 2 else 0) = ∑ v, wdeg W.dense v * x v ^ 2 := Finset.sum_congr rfl fun v _ => by simp
        have a2 : ∑ v, ∑ w, wsym W.dense v w * (x v ^ 2 / 2) = ∑ v, wdeg W.dense v * (x v ^ 2 / 2) := Finset.sum_congr rfl fun v _ => by rw [← Finset.sum_mul, sum_wsym]
        have a3 : ∑ v, ∑ w, wsym W.dense v w * (x w ^ 2 / 2) = ∑ v, wdeg W.dense v * (x v ^ 2 / 2) := by
          rw [Finset.sum_comm]
          refine Finset.sum_congr rfl fun v _ => ?_
          rw [← Finset.sum_mul, ← sum_wsym]
          congr 1
          exact Finset.sum_congr rfl fun w _ => wsym_comm _ _ _
        have a4 : ∑ v, wdeg W.dense v * (x v ^ 2 / 2) = (∑ v, wdeg W.dense v * x v ^ 2) / 2 := by
          rw [Finset.sum_div]
          exact Finset.sum_congr rfl fun v _ => by ring
        rw [a1, a2, a3, a4]
        ring
      _ ≤ γ * (2 * ∑ v, d * x v ^ 2) :=
        mul_le_mul_of_nonneg_left (mul_le_mul_of_nonneg_left (Finset.sum_le_sum fun v _ => mul_le_mul_of_nonneg_right (hd v) (sq_nonneg _)) (by norm_num)) hγ0
      _ = 2 * d * γ * ∑ v, x v ^ 2 := by rw [← Finset.mul_sum]; ring
  have shift : ∀ {A B V V' : Matrix (Fin n) (Fin n) ℝ} {a b : Fin n → ℝ}, IsEigenPairs A a V → IsEigenPairs B b V' → Monotone a → Monotone b →
      (∀ x : Fin n → ℝ, x ⬝ᵥ (A *ᵥ x) - x ⬝ᵥ (B *ᵥ x) ≤ 2 * d * γ * ∑ v, x v ^ 2) → a k ≤ b k + 2 * d * γ := by
    intro A B V V' a b hA hB ha hb hx
    have h2 : IsEigenPairs (B + (2 * d * γ) • (1 : Matrix (Fin n) (Fin n) ℝ)) (fun l => b l + 2 * d * γ) V' := by
      refine ⟨hB.orthonormal, ?_⟩
      have : Matrix.diagonal (fun l => b l + 2 * d * γ) = Matrix.diagonal b + (2 * d * γ) • (1 : Matrix (Fin n) (Fin n) ℝ) := by
        rw [← Matrix.diagonal_one, ← Matrix.diagonal_smul, Matrix.diagonal_add]
        congr 1
        funext l
        simp
      rw [this, Matrix.add_mul, Matrix.mul_add, hB.eig]
      simp
    refine Weyl.le_of_quad_le hA h2 ha (fun i j hij => by simpa using hb hij) (fun x => ?_) k
    have h3 := hx x
    rw [Matrix.add_mulVec, dotProduct_add, Matrix.smul_mulVec, Matrix.one_mulVec, dotProduct_smul, smul_eq_mul]
    have h4 : x ⬝ᵥ x = ∑ v, x v ^ 2 := by simp only [dotProduct, sq]
    rw [h4]
    linarith
  have s1 := shift h' h he' he fun x => (abs_le.1 (hquad x)).2
  have s2 := shift h h' he he' fun x => by linarith [(abs_le.1 (hquad x)).1]
  rw [abs_le]
  constructor <;> linarith

/-- **C142** For an undirected graph with integer weights, all the operations of `compute_laplacian` are exact when the sums of the absolute weights stay below the integers that the
floating-point numbers represent (below `2 ^ 53` in double precision): no rounding occurs at all. -/
theorem C142_integers {B : ℤ} (hfl : ∀ z : ℤ, |z| ≤ B → fl z = z) (hu : Undirected W.dense) {Z : Matrix (Fin n) (Fin n) ℤ} (hZ : ∀ v w, W.dense v w = Z v w)
    (hB : ∀ v, ∑ w, |Z w v| + |Z v v| ≤ B) : combLapFl fl W = combLap W.dense := by
  have hdir : isDirected W = false := (isDirected_eq_false_iff W).2 hu
  have hsum : ∀ v, dwFl fl W v = ∑ w, W.dense w v := fun v => by
    unfold dwFl
    rw [hdir]
    simp only [Bool.false_eq_true, if_false]
    unfold dotFl
    have hl : ∀ (l : List (Fin n)) (acc : ℤ), |acc| + (l.map fun w => |Z w v|).sum ≤ B →
        l.foldl (fun acc j => fl (acc + fl (W.dense j v * 1))) (acc : ℝ) = ((acc + (l.map fun w => Z w v).sum : ℤ) : ℝ) := by
      intro l
      induction l with
      | nil => intro acc _; simp
      | cons w l ih =>
        intro acc hacc
        simp only [List.map_cons, List.sum_cons] at hacc ⊢
        have hpos : 0 ≤ (l.map fun w => |Z w v|).sum := List.sum_nonneg (by simp only [List.mem_map]; rintro _ ⟨a, -, rfl⟩; exact abs_nonneg _)
        have h1 : |Z w v| ≤ B := by linarith [abs_nonneg acc]
        have h2 : |acc + Z w v| ≤ |acc| + |Z w v| := abs_add_le _ _
        rw [List.foldl_cons, mul_one, hZ, hfl _ h1, ← Int.cast_add, hfl _ (by linarith), ih _ (by linarith)]
        push_cast
        ring
    have h3 := hl ((List.finRange n).filter fun j => W.dense j v ≠ 0) 0 (by
      refine le_trans ?_ (hB v)
      have h4 : ((List.finRange n).map fun w => |Z w v|).sum = ∑ w, |Z w v| := (Fin.sum_univ_def _).symm
      have h5 := List.Sublist.sum_le_sum ((List.filter_sublist (p := fun j => W.dense j v ≠ 0) (l := List.finRange n)).map fun w => |Z w v|)
        (by simp only [List.mem_map]; rintro _ ⟨a, -, rfl⟩; exact abs_nonneg _)
      rw [h4] at h5
      simp only [abs_zero, zero_add]
      linarith [abs_nonneg (Z v v)])
    simp only [Int.cast_zero, zero_add] at h3
    rw [h3]
    push_cast
    have h6 := sum_filter_list (fun j => W.dense j v ≠ 0) fun j => W.dense j v
    rw [Finset.sum_filter] at h6
    have h7 : (((List.finRange n).filter fun j => W.dense j v ≠ 0).map fun j => W.dense j v).sum = ∑ w, W.dense w v := by
      rw [h6]
      refine Finset.sum_congr rfl fun w _ => ?_
      split
      · rfl
      · rename_i h8
        exact (not_not.1 h8).symm
    rw [← h7, List.map_map]
    congr 1
    refine List.map_congr_left fun w _ => ?_
    simp [hZ]
  ext v w
  unfold combLapFl combLap symFl
  simp only [Matrix.of_apply, hsum, hdir, Bool.false_eq_true, if_false]
  have e1 : wsym W.dense v w = W.dense v w := by
    unfold wsym
    rw [hu w v]
    ring
  have e2 : wdeg W.dense v = ∑ w, W.dense w v := by
    rw [← dw_eq]
    unfold dw
    rw [hdir]
    simp
  rw [e1, e2]
  have h8 : ∀ v, |∑ w, Z w v| ≤ ∑ w, |Z w v| := fun v => Finset.abs_sum_le_sum_abs _ _
  have h9 : |Z v w| ≤ ∑ a, |Z a w| := Finset.single_le_sum (f := fun a => |Z a w|) (fun a _ => abs_nonneg _) (Finset.mem_univ v)
  by_cases hvw : v = w
  · subst hvw
    rw [if_pos rfl]
    simp only [hZ]
    rw [← Int.cast_sum, ← Int.cast_sub]
    refine hfl _ ((abs_sub _ _).trans ?_)
    linarith [h8 v, hB v]
  · rw [if_neg hvw]
    simp only [hZ]
    rw [zero_sub, ← Int.cast_neg]
    refine hfl _ ?_
    rw [abs_neg]
    linarith [hB w, abs_nonneg (Z w w)]

end

/-- the hypotheses are met: a cycle of four vertices after `estimate_lmax("bounds")`, double precision and an approximation of order 30 -/
theorem Rounding.cycle_witness : ∃ (S : Solvers 4) (g : Graph 4 ℝ) (s : GState 4), Ready S g s ∧ s.lapType = .combinatorial ∧ (s.getLmax S).1 = .ok (some (.fin 4)) ∧ (∀ t, IsEigenvalue s.L t → t ≤ 4) ∧
    (∀ v, (Finset.univ.filter fun w => g.W.dense v w ≠ 0 ∨ g.W.dense w v ≠ 0 ∨ v = w).card ≤ 4) ∧ (∀ v, (Finset.univ.filter fun w => s.L v w ≠ 0 ∨ v = w).card ≤ 4) ∧
    Undirected g.W.dense ∧ (∀ v, wdeg g.W.dense v ≤ 2) ∧ (∃ Z : Matrix (Fin 4) (Fin 4) ℤ, (∀ v w, g.W.dense v w = Z v w) ∧ ∀ v, ∑ w, |Z w v| + |Z v v| ≤ 2 ^ 53 - 1) ∧
    (∃ (e' : Fin 4 → ℝ) (U' : Matrix (Fin 4) (Fin 4) ℝ), IsEigenPairs (combLapFl (nearest 53) g.W) e' U' ∧ Monotone e') ∧
    Rounds (nearest 53) ((2 : ℝ) ^ (-(53 : ℤ))) ∧ nearest 53 4 = 4 ∧ (∀ z : ℤ, |z| ≤ 2 ^ 53 - 1 → nearest 53 z = z) ∧
    (16 : ℝ) * ((31 : ℕ) - 1) * (31 : ℕ) * roundings ((2 : ℝ) ^ (-(53 : ℤ))) (4 + 5) ≤ 1 ∧
    (2 : ℝ) * ((31 : ℕ) - 1) * (31 : ℕ) * (roundings ((2 : ℝ) ^ (-(53 : ℤ))) (4 + 5) * (2 * √(4 : ℕ) + 2)) ≤ 1 := by
  obtain ⟨g, hg, hd, hlt⟩ := Graph.exists_built (K := ℝ) (!![0, 1, 0, 1; 1, 0, 1, 0; 0, 1, 0, 1; 1, 0, 1, 0] : Matrix (Fin 4) (Fin 4) ℝ) .combinatorial
  obtain ⟨S, hS, -⟩ := exists_sound 4
  have h0 := GState.ofGraph_inv (S := S) g hg
  have hl0 : (GState.ofGraph g).lapType = .combinatorial := by rw [h0.2.2.1, hlt]
  have hnn : NonnegW g.W.dense := by rw [hd]; intro i j; fin_cases i <;> fin_cases j <;> simp
  have hu : Undirected g.W.dense := by rw [hd]; intro i j; fin_cases i <;> fin_cases j <;> simp
  have hdeg : ∀ i, wdeg g.W.dense i = 2 := by
    intro i
    rw [hd, ← sum_wsym]
    fin_cases i <;> simp [Fin.sum_univ_four, wsym] <;> norm_num
  have hw : IsGreatest {t | ∃ i j, t = g.W.dense i j} 1 := by
    rw [hd]
    exact ⟨⟨0, 1, by simp⟩, by rintro t ⟨i, j, rfl⟩; fin_cases i <;> fin_cases j <;> simp⟩
  have hdm : IsGreatest {t | ∃ i, t = wdeg g.W.dense i} 2 := ⟨⟨0, (hdeg 0).symm⟩, by rintro t ⟨i, rfl⟩; exact (hdeg i).le⟩
  have hm : (GState.ofGraph g).lmaxMethod ≠ some .bounds := by
    have : (GState.ofGraph g).lmaxMethod = none := h0.2.2.2.2.1
    rw [this]; simp
  have hreach : GState.ofGraph g = runAll S [] (GState.ofGraph g) := rfl
  obtain ⟨B, w, d, hB, hw', hd', hleast⟩ := (C109_estimate hS hg hnn (by norm_num) [] hreach hm).2 hl0
  obtain rfl := hw'.unique hw
  obtain rfl := hd'.unique hdm
  have hB4 : B = 4 := by
    rcases hleast.1 with h | h | h | ⟨-, h⟩
    · rw [h]; norm_num
    · rw [h]; norm_num
    · obtain ⟨i, j, -, h⟩ := h.1
      rw [h, hdeg, hdeg]; norm_num
    · obtain ⟨i, h⟩ := h.1
      rw [h]
      simp only [hdeg]
      rw [← Finset.sum_mul, sum_wsym, hdeg]; norm_num
  obtain ⟨v, hv1, hv2⟩ := C109_exact hS hg hnn (by norm_num) [] hreach hm hl0 hw hdm (.inr ⟨{0, 2}, by simp, ⟨1, by simp⟩, by
    rw [hd]
    intro i hi j hj
    fin_cases i <;> fin_cases j <;> simp [wsym] at hi hj ⊢⟩)
  have hvB : v = B := by
    have := hv1.symm.trans hB
    simpa using this
  have hLs := GState.estimateLmax_L S .bounds (GState.ofGraph g)
  have hready : Ready S g ((GState.ofGraph g).estimateLmax S .bounds).2 :=
    ⟨hS, hg, hnn, by norm_num, ⟨[.estimateLmax .bounds], rfl⟩, .inl (by rw [GState.estimateLmax_lapType h0.1.pure, hl0]), by
      rw [estimateLmax_basis, h0.2.2.2.2.2]; intro b hb; cases hb⟩
  have hc : ((GState.ofGraph g).estimateLmax S .bounds).2.lapType = .combinatorial := by rw [GState.estimateLmax_lapType h0.1.pure, hl0]
  have hu53 : (0 : ℝ) ≤ 2 ^ (-(53 : ℤ)) := by positivity
  have hγ := (C142_unit hu53 (m := 4 + 5) (by norm_num)).2
  have hγ' : roundings ((2 : ℝ) ^ (-(53 : ℤ))) (4 + 5) ≤ 1 / 10 ^ 9 := hγ.trans (by norm_num)
  have hnear := C142_nearest 53
  have h4 := hnear.2 4 (by norm_num)
  have hZ : ∀ v w, g.W.dense v w = ((!![0, 1, 0, 1; 1, 0, 1, 0; 0, 1, 0, 1; 1, 0, 1, 0] : Matrix (Fin 4) (Fin 4) ℤ) v w : ℝ) := by
    rw [hd]; intro i j; fin_cases i <;> fin_cases j <;> simp
  have hint : ∀ z : ℤ, |z| ≤ 2 ^ 53 - 1 → nearest 53 z = z := fun z hz => hnear.2 z (by omega)
  have hZB : ∀ v, ∑ w, |(!![0, 1, 0, 1; 1, 0, 1, 0; 0, 1, 0, 1; 1, 0, 1, 0] : Matrix (Fin 4) (Fin 4) ℤ) w v| + |(!![0, 1, 0, 1; 1, 0, 1, 0; 0, 1, 0, 1; 1, 0, 1, 0] : Matrix (Fin 4) (Fin 4) ℤ) v v| ≤ 2 ^ 53 - 1 := by
    intro v
    fin_cases v <;> simp [Fin.sum_univ_four]
  refine ⟨S, g, _, hready, hc, by rw [hB, hB4], fun t ht => ?_, fun v => (Finset.card_le_univ _).trans (by simp), fun v => (Finset.card_le_univ _).trans (by simp), hu,
    fun v => (hdeg v).le, ⟨_, hZ, hZB⟩, ?_, hnear.1, by exact_mod_cast h4, hint, ?_, ?_⟩
  · rw [hLs] at ht
    have := hv2.2 ht
    rw [hvB, hB4] at this
    exact this
  · rw [C142_integers hint hu hZ hZB]
    obtain ⟨e, U, -, -, -, -, -, h1, h2⟩ := C113_computed hready
    rw [hready.comb hc] at h1
    exact ⟨e, U, h1, h2⟩
  · generalize roundings ((2 : ℝ) ^ (-(53 : ℤ))) (4 + 5) = γ at hγ' ⊢
    push_cast
    linarith
  · have h5 : √((4 : ℕ) : ℝ) = 2 := by
      rw [show ((4 : ℕ) : ℝ) = 2 ^ 2 by norm_num]
      exact Real.sqrt_sq (by norm_num)
    rw [h5]
    generalize roundings ((2 : ℝ) ^ (-(53 : ℤ))) (4 + 5) = γ at hγ' ⊢
    push_cast
    linarith

end PyGSP
