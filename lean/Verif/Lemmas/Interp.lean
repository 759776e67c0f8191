import Verif.Lemmas.Reduction
import Verif.Lemmas.Single

/-! # The legacy analysis and the interpolation -/

namespace PyGSP

open Matrix Spec GState Reduction Learning

variable {n k : ℕ}

namespace Reduction

/-- the arrays that `_analysis` returns: one column, the signals one after the other -/
noncomputable def stacked {m : ℕ} (y : Fin n → Fin m → ℝ) : Arr :=
  Arr.of2 fun (i : Fin (n * m)) (_ : Fin 1) =>
    y ⟨i.1 % n, Nat.mod_lt _ (Nat.pos_of_ne_zero fun h => by have := i.2; simp [h] at this)⟩
      ⟨i.1 / n, Nat.div_lt_of_lt_mul i.2⟩

theorem swapReshape_of1 (y : Fin n → ℝ) : swapReshape (to3d (Arr.of1 y)) = Arr.of2 fun v (_ : Fin 1) => y v := by
  have h : to3d (Arr.of1 y) = ((Arr.of1 y).expandDims 1).expandDims 1 := by simp [to3d, Arr.of1, Arr.ndim]
  rw [h]
  ext1
  · simp [swapReshape, Arr.expandDims, Arr.of1, Arr.of2]
  · funext idx
    simp only [swapReshape, Arr.expandDims, Arr.of1, Arr.of2]
    match idx with
    | [] => rfl
    | [i] => rfl
    | [i, j] =>
      simp only [List.insertIdx, List.modifyTailIdx, List.modifyTailIdx.go, List.getD_cons_zero, List.getD_cons_succ, Nat.mul_one]
      by_cases hc : i < n ∧ j < 1
      · rw [if_pos hc, dif_pos hc]
        simp [Nat.mod_eq_of_lt hc.1, hc.1]
      · rw [if_neg hc, dif_neg hc]
    | i :: j :: l :: t => rfl

theorem swapReshape_of2 {m : ℕ} (y : Fin n → Fin m → ℝ) : swapReshape (to3d (Arr.of2 y)) = stacked y := by
  have h : to3d (Arr.of2 y) = (Arr.of2 y).expandDims 1 := by simp [to3d, Arr.of2, Arr.ndim]
  rw [h]
  unfold stacked
  ext1
  · simp [swapReshape, Arr.expandDims, Arr.of2]
  · funext idx
    simp only [swapReshape, Arr.expandDims, Arr.of2]
    match idx with
    | [] => rfl
    | [i] => rfl
    | [i, j] =>
      simp only [List.insertIdx, List.modifyTailIdx, List.modifyTailIdx.go, List.getD_cons_zero, List.getD_cons_succ]
      by_cases hc : i < n * m ∧ j < 1
      · rw [if_pos hc, dif_pos hc]
        have hn : 0 < n := Nat.pos_of_ne_zero fun h => by have := hc.1; simp [h] at this
        have h1 : i % n < n := Nat.mod_lt _ hn
        have h2 : i / n < m := Nat.div_lt_of_lt_mul hc.1
        simp [h1, h2]
      · rw [if_neg hc, dif_neg hc]
    | i :: j :: l :: t => rfl

variable {S : Solvers n} {g : Kernel} {method : FMethod} {order : ℕ} {st st' : GState n}
  {M : Fin 1 → Matrix (Fin n) (Fin n) ℝ}

theorem analysis_of1 (hn : n ≠ 1) (h : (Bank.ofArg (.one g)).ops S method order st = (.ok M, st')) (x : Fin n → ℝ) :
    analysis S (Bank.ofArg (.one g)) (Arr.of1 x) method order st = (.ok (Arr.of2 fun v (_ : Fin 1) => (M 0 *ᵥ x) v), st') := by
  have h1 : (Bank.ofArg (.one g)).filter S (Arr.of1 x) method order st = (.ok (Arr.of1 (M 0 *ᵥ x)), st') := by
    rw [Bank.filter_eq, parse_of1]
    simp only [h]
    refine congrArg (fun t => (Except.ok t, st')) ?_
    exact (C28_shapes hn _).2.2.2 rfl rfl
  unfold analysis
  rw [h1]
  simp only
  rw [if_neg (by simp [Arr.of1, Arr.ndim]), swapReshape_of1]

theorem analysis_col (hn : n ≠ 1) (h : (Bank.ofArg (.one g)).ops S method order st = (.ok M, st')) (x : Fin n → Fin 1 → ℝ) :
    analysis S (Bank.ofArg (.one g)) (Arr.of2 x) method order st =
      (.ok (Arr.of2 fun v (_ : Fin 1) => (M 0 *ᵥ fun w => x w 0) v), st') := by
  have h1 : (Bank.ofArg (.one g)).filter S (Arr.of2 x) method order st = (.ok (Arr.of1 (M 0 *ᵥ fun w => x w 0)), st') := by
    rw [Bank.filter_eq, parse_of2_analysis _ _ (.inl rfl)]
    simp only [h]
    refine congrArg (fun t => (Except.ok t, st')) ?_
    exact (C28_shapes hn _).2.2.2 rfl rfl
  unfold analysis
  rw [h1]
  simp only
  rw [if_neg (by simp [Arr.of1, Arr.ndim]), swapReshape_of1]

theorem analysis_many (hn : n ≠ 1) (h : (Bank.ofArg (.one g)).ops S method order st = (.ok M, st')) {m : ℕ} (hm : m ≠ 1)
    (x : Fin n → Fin m → ℝ) :
    analysis S (Bank.ofArg (.one g)) (Arr.of2 x) method order st =
      (.ok (stacked fun v j => (M 0 *ᵥ fun w => x w j) v), st') := by
  have h1 : (Bank.ofArg (.one g)).filter S (Arr.of2 x) method order st =
      (.ok (Arr.of2 fun v j => (M 0 *ᵥ fun w => x w j) v), st') := by
    rw [Bank.filter_eq, parse_of2_analysis (Bank.ofArg (.one g)).Nf x (.inr hm)]
    simp only [h]
    refine congrArg (fun t => (Except.ok t, st')) ?_
    exact (C28_shapes hn _).2.1 hm rfl
  unfold analysis
  rw [h1]
  simp only
  rw [if_neg (by simp [Arr.of2, Arr.ndim]), swapReshape_of2]

/-- the values put on the kept vertices -/
theorem scatter_ind (K : Matrix (Fin k) (Fin k) ℝ) {ind : Fin k → Fin n} (hi : Function.Injective ind) (f : Fin k → ℝ) (a : Fin k) :
    scatter K ind f (ind a) = (K *ᵥ f) a := by
  unfold scatter
  have : (List.finRange k).reverse.find? (fun b => decide (ind b = ind a)) = some a := by
    rw [List.find?_eq_some_iff_append]
    refine ⟨by simp, ?_⟩
    obtain ⟨l1, l2, h⟩ := List.append_of_mem (List.mem_reverse.2 (List.mem_finRange a))
    refine ⟨l1, l2, h, fun b hb => ?_⟩
    have hnd : (List.finRange k).reverse.Nodup := List.nodup_reverse.2 (List.nodup_finRange k)
    rw [h] at hnd
    have hne : b ≠ a := by
      rintro rfl
      exact (List.nodup_append.1 hnd).2.2 b hb b (by simp) rfl
    simpa using fun h => hne (hi h)
  rw [this]

theorem scatter_out (K : Matrix (Fin k) (Fin k) ℝ) {ind : Fin k → Fin n} (f : Fin k → ℝ) {v : Fin n}
    (hv : kept ind v = false) : scatter K ind f v = 0 := by
  unfold scatter
  have : (List.finRange k).reverse.find? (fun b => decide (ind b = v)) = none := by
    rw [List.find?_eq_none]
    intro b _
    simpa using (kept_false_iff ind v).1 hv b
  rw [this]

theorem scatterArr_of1 (K : Matrix (Fin k) (Fin k) ℝ) (ind : Fin k → Fin n) (x : Fin k → ℝ) :
    scatterArr K ind (Arr.of1 x) = .ok (Arr.of1 (scatter K ind x)) := by
  unfold scatterArr
  simp [Arr.of1]

theorem scatterArr_of2 (K : Matrix (Fin k) (Fin k) ℝ) (ind : Fin k → Fin n) {m : ℕ} (x : Fin k → Fin m → ℝ) :
    scatterArr K ind (Arr.of2 x) = .ok (Arr.of2 fun v j => scatter K ind (fun i => x i j) v) := by
  have h : ∀ (i : Fin k) (j : Fin m), (Arr.of2 x).val [i.1, j.1] = x i j := by intro i j; simp [Arr.of2]
  unfold scatterArr
  refine (if_pos (c := k = k) rfl).trans ?_
  refine congrArg Except.ok (congrArg Arr.of2 ?_)
  funext v j
  simp only [h]

theorem kernel_ops_exact {b : Basis n} {s s' : GState n} (g : Kernel) {y : Fin b.k → ℝ} (order : ℕ)
    (h : s.getBasis S = (.ok (some b), s')) (hk : b.k = n) (hy : g b.k b.e = .ok y) :
    (Bank.ofArg (.one g)).ops S .exact order s = (.ok fun _ => spectralOp b.U y, s') := by
  have hev : (Bank.ofArg (.one g)).evaluate b.e = .ok fun _ => y := by
    unfold Bank.evaluate
    rw [seqFin_ok]
    intro i
    have : i = ⟨0, Nat.one_pos⟩ := Fin.ext (Nat.lt_one_iff.1 i.2)
    rw [this]; exact hy
  exact Bank.ops_exact_intro order h hk hev

/-- filtering with the Green kernel inverts the regularised Laplacian -/
theorem green_inverse {L U : Matrix (Fin n) (Fin n) ℝ} {e : Fin n → ℝ} (he : IsEigenPairs L e U) {eps : ℝ}
    (hp : ∀ j, eps + e j ≠ 0) (v : Fin n → ℝ) :
    spectralOp U (fun j => 1 / (eps + e j)) *ᵥ ((L + eps • (1 : Matrix (Fin n) (Fin n) ℝ)) *ᵥ v) = v := by
  have h1 : L + eps • (1 : Matrix (Fin n) (Fin n) ℝ) = spectralOp U fun j => eps + e j := by
    have := aeval_spectral he (Polynomial.X + Polynomial.C eps)
    simp only [map_add, Polynomial.aeval_X, Polynomial.aeval_C, Polynomial.eval_add, Polynomial.eval_X, Polynomial.eval_C] at this
    rw [Algebra.algebraMap_eq_smul_one] at this
    rw [this]
    congr 1
    funext j
    ring
  rw [h1, Matrix.mulVec_mulVec, spectralOp_mul he.orthonormal]
  have h2 : (fun j => 1 / (eps + e j) * (eps + e j)) = fun _ => (1 : ℝ) := by
    funext j
    rw [one_div, inv_mul_cancel₀ (hp j)]
  first
    | rw [h2, spectralOp_one he.orthonormal, Matrix.one_mulVec]
    | (change spectralOp U (fun j => 1 / (eps + e j) * (eps + e j)) *ᵥ v = v
       rw [h2, spectralOp_one he.orthonormal, Matrix.one_mulVec])

end Reduction

end PyGSP
