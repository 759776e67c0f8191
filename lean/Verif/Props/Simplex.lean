import Verif.Lemmas.Simplex
import Verif.Props.Learning
import Verif.Props.Utils
import Verif.Props.FilterWitness
import Mathlib.Data.Fin.Tuple.Sort

/-!
# C61: classification constrained to the simplex
-/

namespace PyGSP

open Matrix Spec GState Learning

variable {n d : ℕ}

/-- **The projection**: for every row with at least one class, the result is a probability vector, it is closer to the row
than any other probability vector `w`, by at least the squared distance to `w` (so it is the unique closest one). -/
theorem C61_projection {idx : (Fin d → ℝ) → Fin d → Fin d} (hidx : IsArgsort idx) (hd : 0 < d) (y : Fin d → ℝ) :
    ∃ x, projSimplex idx y = .ok x ∧ InSimplex x ∧
      ∀ w, InSimplex w → ∑ j, (x j - y j) ^ 2 + ∑ j, (w j - x j) ^ 2 ≤ ∑ j, (w j - y j) ^ 2 := by
  obtain ⟨lam, h1, h2⟩ := projSimplex_ok (hidx y).1 (hidx y).2 hd
  exact ⟨_, h1, ⟨fun j => le_max_left _ _, h2⟩, fun w hw => threshold_dist h2 hw⟩

/-- A probability vector is left unchanged. -/
theorem C61_projection_idem {idx : (Fin d → ℝ) → Fin d → Fin d} (hidx : IsArgsort idx) {y : Fin d → ℝ} (hy : InSimplex y) :
    projSimplex idx y = .ok y := by
  have hd : 0 < d := by
    rcases Nat.eq_zero_or_pos d with h | h
    · subst h
      have := hy.2
      simp at this
    · exact h
  obtain ⟨x, h1, -, h3⟩ := C61_projection hidx hd y
  have h4 := h3 y hy
  have h5 : ∑ j, (y j - y j) ^ 2 = 0 := by simp
  rw [h5] at h4
  have h6 : 0 ≤ ∑ j, (y j - x j) ^ 2 := Finset.sum_nonneg fun j _ => sq_nonneg _
  have h7 : ∑ j, (x j - y j) ^ 2 = 0 := le_antisymm (by linarith) (Finset.sum_nonneg fun j _ => sq_nonneg _)
  rw [h1]
  congr 1
  funext j
  have := (Finset.sum_eq_zero_iff_of_nonneg fun j _ => sq_nonneg _).1 h7 j (Finset.mem_univ j)
  have := pow_eq_zero_iff two_ne_zero |>.1 this
  linarith

/-- No class: IndexError. -/
theorem C61_no_class (idx : (Fin 0 → ℝ) → Fin 0 → Fin 0) (y) : projSimplex idx y = .error .indexError := dif_neg (lt_irrefl 0)

/-- the quadratic part of the objective -/
noncomputable def curvature (L : Matrix (Fin n) (Fin n) ℝ) (m : Fin n → Bool) (tau : ℝ) (W : Matrix (Fin n) (Fin d) ℝ) : ℝ :=
  ∑ j, ((∑ v, if m v then (W v j) ^ 2 else 0) + tau * smoothness L fun v => W v j)

theorem objective_add {L : Matrix (Fin n) (Fin n) ℝ} (hL : Lᵀ = L) (m : Fin n → Bool) (y : Fin n → ℝ) (tau : ℝ) (x w : Fin n → ℝ) :
    objective L m y tau (x + w) = objective L m y tau x +
      ∑ v, 2 * ((if m v then x v - y v else 0) + tau * (L *ᵥ x) v) * w v +
      ((∑ v, if m v then (w v) ^ 2 else 0) + tau * smoothness L w) := by
  unfold objective
  rw [quad_add hL]
  have h1 : ∑ v, 2 * ((if m v then x v - y v else 0) + tau * (L *ᵥ x) v) * w v =
      ∑ v, (if m v then 2 * (x v - y v) * w v else 0) + 2 * tau * (w ⬝ᵥ (L *ᵥ x)) := by
    unfold dotProduct
    rw [Finset.mul_sum, ← Finset.sum_add_distrib]
    refine Finset.sum_congr rfl fun v _ => ?_
    split <;> ring
  have h2 : (∑ v, if m v then ((x + w) v - y v) ^ 2 else 0) = (∑ v, if m v then (x v - y v) ^ 2 else 0) +
      (∑ v, (if m v then 2 * (x v - y v) * w v else 0)) + ∑ v, if m v then (w v) ^ 2 else 0 := by
    rw [← Finset.sum_add_distrib, ← Finset.sum_add_distrib]
    refine Finset.sum_congr rfl fun v _ => ?_
    split
    · simp only [Pi.add_apply]; ring
    · ring
  rw [h1, h2]
  ring

/-- the two functions passed to the solver -/
theorem classObjective_add {L : Matrix (Fin n) (Fin n) ℝ} (hL : Lᵀ = L) (m : Fin n → Bool) (Y : Matrix (Fin n) (Fin d) ℝ)
    (tau : ℝ) (X W : Matrix (Fin n) (Fin d) ℝ) :
    classObjective L m Y tau (X + W) = classObjective L m Y tau X + ∑ v, ∑ j, smoothGrad L m Y tau X v j * W v j +
      curvature L m tau W := by
  unfold classObjective curvature
  rw [Finset.sum_comm (f := fun v j => smoothGrad L m Y tau X v j * W v j), ← Finset.sum_add_distrib, ← Finset.sum_add_distrib]
  refine Finset.sum_congr rfl fun j _ => ?_
  have := objective_add hL m (fun v => Y v j) tau (fun v => X v j) (fun v => W v j)
  have e : (fun v => (X + W) v j) = (fun v => X v j) + fun v => W v j := rfl
  rw [e, this]
  congr 2
  refine Finset.sum_congr rfl fun v _ => ?_
  have e2 : (L * X) v j = (L *ᵥ fun v => X v j) v := rfl
  unfold smoothGrad
  simp only [Matrix.of_apply, e2]
  split <;> ring

/-- **The functions passed to the solver**: the value is the documented objective `‖M X - Y‖² + tau tr(Xᵀ L X)`, and the
gradient is its gradient: at every `X`, in every direction `W`, the objective is the value, plus the inner product of the
gradient with `W`, plus a term that does not depend on `X` and is quadratic in `W`. -/
theorem C61_gradient {L : Matrix (Fin n) (Fin n) ℝ} (hL : Lᵀ = L) (m : Fin n → Bool) (Y : Matrix (Fin n) (Fin d) ℝ)
    (tau : ℝ) :
    (∀ X, smoothEval L m Y tau X = classObjective L m Y tau X) ∧
    ∃ Q : Matrix (Fin n) (Fin d) ℝ → ℝ, (∀ (c : ℝ) (W), Q (c • W) = c ^ 2 * Q W) ∧
      ∀ X W, smoothEval L m Y tau (X + W) =
        smoothEval L m Y tau X + ∑ v, ∑ j, smoothGrad L m Y tau X v j * W v j + Q W := by
  have h : ∀ X, smoothEval L m Y tau X = classObjective L m Y tau X := by
    intro X
    unfold smoothEval classObjective objective smoothness
    rw [Finset.sum_add_distrib, add_comm, Finset.sum_comm, ← Finset.mul_sum,
      Finset.sum_comm (f := fun v j => X v j * (L * X) v j)]
    refine congrArg₂ _ (Finset.sum_congr rfl fun j _ => Finset.sum_congr rfl fun v _ => ?_) rfl
    split <;> ring
  refine ⟨h, curvature L m tau, fun c W => ?_, fun X W => ?_⟩
  · unfold curvature
    rw [Finset.mul_sum]
    refine Finset.sum_congr rfl fun j _ => ?_
    have e : (fun v => (c • W) v j) = c • fun v => W v j := rfl
    unfold smoothness
    rw [e, Matrix.mulVec_smul, dotProduct_smul, smul_dotProduct, mul_add, Finset.mul_sum]
    simp only [smul_eq_mul, Matrix.smul_apply]
    refine congrArg₂ _ (Finset.sum_congr rfl fun v _ => ?_) (by ring)
    split <;> ring
  · rw [h, h, classObjective_add hL]

theorem curvature_nonneg {L : Matrix (Fin n) (Fin n) ℝ} (hp : PSD L) (m : Fin n → Bool) {tau : ℝ} (ht : 0 < tau)
    (W : Matrix (Fin n) (Fin d) ℝ) : 0 ≤ curvature L m tau W := by
  refine Finset.sum_nonneg fun j _ => add_nonneg (Finset.sum_nonneg fun v _ => ?_) (mul_nonneg ht.le (hp _))
  split <;> positivity

theorem curvature_le {L : Matrix (Fin n) (Fin n) ℝ} (hL : Lᵀ = L) {lmax : ℝ} (hmax : ∀ l, IsEigenvalue L l → l ≤ lmax)
    (m : Fin n → Bool) {tau : ℝ} (ht : 0 < tau) (W : Matrix (Fin n) (Fin d) ℝ) :
    curvature L m tau W ≤ (1 + tau * lmax) * ∑ v, ∑ j, (W v j) ^ 2 := by
  unfold curvature
  rw [Finset.sum_comm, Finset.mul_sum]
  refine Finset.sum_le_sum fun j _ => ?_
  have h1 := quad_le_of_eig_le (fun i j => (congrFun (congrFun hL i) j).symm) hmax fun v => W v j
  have h2 : (∑ v, if m v then (W v j) ^ 2 else 0) ≤ ∑ v, (W v j) ^ 2 :=
    Finset.sum_le_sum fun v _ => by split; exacts [le_rfl, sq_nonneg _]
  have h3 : (fun v => W v j) ⬝ᵥ (fun v => W v j) = ∑ v, (W v j) ^ 2 :=
    Finset.sum_congr rfl fun v _ => by ring
  rw [h3] at h1
  have h4 := mul_le_mul_of_nonneg_left h1 ht.le
  unfold smoothness
  linarith

/-- the three-point inequality of a step -/
theorem step_ineq {idx : (Fin d → ℝ) → Fin d → Fin d} (hidx : IsArgsort idx) (hd : 0 < d) {L : Matrix (Fin n) (Fin n) ℝ}
    (hL : Lᵀ = L) (hp : PSD L) {lmax : ℝ} (h0 : 0 ≤ lmax) (hmax : ∀ l, IsEigenvalue L l → l ≤ lmax) (m : Fin n → Bool)
    (Y : Matrix (Fin n) (Fin d) ℝ) {tau : ℝ} (ht : 0 < tau) (X : Matrix (Fin n) (Fin d) ℝ) :
    ∃ X', fbStep idx L m Y tau lmax X = .ok X' ∧ RowsInSimplex X' ∧ ∀ Z, RowsInSimplex Z →
      classObjective L m Y tau X' + (1 + tau * lmax) * sqDist Z X' ≤ classObjective L m Y tau Z + (1 + tau * lmax) * sqDist Z X := by
  have hc : 0 < 1 + tau * lmax := by have := mul_nonneg ht.le h0; linarith
  have hrow := fun v => projSimplex_ok (hidx fun j => X v j - 0.5 / (1 + tau * lmax) * smoothGrad L m Y tau X v j).1
    (hidx fun j => X v j - 0.5 / (1 + tau * lmax) * smoothGrad L m Y tau X v j).2 hd
  choose lam h1 h2 using hrow
  refine ⟨Matrix.of fun v j => max 0 (X v j - 0.5 / (1 + tau * lmax) * smoothGrad L m Y tau X v j - lam v), ?_,
    fun v => ⟨fun j => le_max_left _ _, h2 v⟩, fun Z hZ => ?_⟩
  · unfold fbStep
    simp only
    rw [(seqFin_ok n _ _).2 h1]
  · obtain ⟨X', hX'⟩ : ∃ X' : Matrix (Fin n) (Fin d) ℝ,
        X' = Matrix.of fun v j => max 0 (X v j - 0.5 / (1 + tau * lmax) * smoothGrad L m Y tau X v j - lam v) := ⟨_, rfl⟩
    rw [← hX']
    have hopt : ∀ v, 0 ≤ ∑ j, (X' v j - (X v j - 0.5 / (1 + tau * lmax) * smoothGrad L m Y tau X v j)) * (Z v j - X' v j) := by
      intro v
      rw [hX']
      exact threshold_opt (h2 v) (hZ v)
    have hsum := Finset.sum_nonneg fun v (_ : v ∈ Finset.univ) => hopt v
    have hF1 := classObjective_add hL m Y tau X (X' - X)
    have hF2 := classObjective_add hL m Y tau X (Z - X)
    rw [add_sub_cancel] at hF1 hF2
    have hQ1 := curvature_le hL hmax m ht (X' - X)
    have hQ2 := curvature_nonneg hp m ht (Z - X)
    -- split the optimality inequality
    have hs2 : ∑ v, ∑ j, (X' v j - (X v j - 0.5 / (1 + tau * lmax) * smoothGrad L m Y tau X v j)) * (Z v j - X' v j) =
        1 / (2 * (1 + tau * lmax)) * ((∑ v, ∑ j, smoothGrad L m Y tau X v j * (Z - X) v j) -
          ∑ v, ∑ j, smoothGrad L m Y tau X v j * (X' - X) v j) +
        1 / 2 * (sqDist Z X - sqDist Z X' - ∑ v, ∑ j, ((X' - X) v j) ^ 2) := by
      unfold sqDist
      rw [← Finset.sum_sub_distrib, ← Finset.sum_sub_distrib, ← Finset.sum_sub_distrib, Finset.mul_sum, Finset.mul_sum,
        ← Finset.sum_add_distrib]
      refine Finset.sum_congr rfl fun v _ => ?_
      rw [← Finset.sum_sub_distrib, ← Finset.sum_sub_distrib, ← Finset.sum_sub_distrib, Finset.mul_sum, Finset.mul_sum,
        ← Finset.sum_add_distrib]
      refine Finset.sum_congr rfl fun j _ => ?_
      simp only [Matrix.sub_apply]
      have : (0.5 : ℝ) / (1 + tau * lmax) = 1 / (2 * (1 + tau * lmax)) := by field_simp; norm_num
      rw [this]
      generalize 1 / (2 * (1 + tau * lmax)) = t
      ring
    rw [hs2] at hsum
    have h3 := mul_nonneg hc.le hsum
    rw [mul_add, ← mul_assoc] at h3
    have h4 : (1 + tau * lmax) * (1 / (2 * (1 + tau * lmax))) = 1 / 2 := by field_simp
    rw [h4] at h3
    generalize ∑ v, ∑ j, smoothGrad L m Y tau X v j * (Z - X) v j = gz at *
    generalize ∑ v, ∑ j, smoothGrad L m Y tau X v j * (X' - X) v j = gx at *
    generalize 1 + tau * lmax = c at *
    nlinarith

section History

variable {S : Solvers n} (hS : Sound S) {g : Graph n ℝ} (hg : g.Built) (hist : List (Op n)) {s : GState n}
  (hs : s = runAll S hist (GState.ofGraph g)) (hW : NonnegW g.W.dense)
  {idx : (Fin d → ℝ) → Fin d → Fin d} (hidx : IsArgsort idx) (hd : 0 < d)
  {lmax : ℝ} (h0 : 0 ≤ lmax) (hmax : ∀ l, IsEigenvalue s.L l → l ≤ lmax) (m : Fin n → Bool)
  (Y : Matrix (Fin n) (Fin d) ℝ) {tau : ℝ} (ht : 0 < tau)

include hS hg hs hW in
theorem simplex_setup_L : s.Lᵀ = s.L ∧ PSD s.L := by
  obtain ⟨hi, hWs, -⟩ := reach_inv hS hg hist
  rw [← hs] at hi hWs
  have hW2 : NonnegW s.W.dense := by
    have : s.W = g.W := hWs
    rw [this]; exact hW
  refine ⟨?_, hi.psd hW2⟩
  obtain ⟨lt, -, h, -⟩ := hi.lap
  ext i j
  exact laplacian_symm _ _ _ h j i

include hS hg hs hW hidx hd h0 hmax ht

/-- **A step** from any point `X` (so also from an extrapolated one): it does not fail, gives probability vectors, and makes
progress towards every feasible `Z`, in particular the objective does not increase from a feasible point. -/
theorem C61_step (X : Matrix (Fin n) (Fin d) ℝ) :
    ∃ X', fbStep idx s.L m Y tau lmax X = .ok X' ∧ RowsInSimplex X' ∧
      (RowsInSimplex X → classObjective s.L m Y tau X' ≤ classObjective s.L m Y tau X) ∧
      ∀ Z, RowsInSimplex Z → classObjective s.L m Y tau X' + (1 + tau * lmax) * sqDist Z X' ≤
        classObjective s.L m Y tau Z + (1 + tau * lmax) * sqDist Z X := by
  obtain ⟨hL, hp⟩ := simplex_setup_L hS hg hist hs hW
  obtain ⟨X', h1, h2, h3⟩ := step_ineq hidx hd hL hp h0 hmax m Y ht X
  refine ⟨X', h1, h2, fun hX => ?_, h3⟩
  have h4 := h3 X hX
  have h5 : sqDist X X = 0 := by simp [sqDist]
  have h6 : 0 ≤ sqDist X X' := Finset.sum_nonneg fun v _ => Finset.sum_nonneg fun j _ => sq_nonneg _
  have hc : 0 < 1 + tau * lmax := by have := mul_nonneg ht.le h0; linarith
  have h7 := mul_nonneg hc.le h6
  rw [h5] at h4
  linarith

/-- **Where the solver stops moving is the solution**: a fixed point of the step minimises the documented objective over
all the matrices whose rows are probability vectors. -/
theorem C61_fixed_point (X : Matrix (Fin n) (Fin d) ℝ) (hX : fbStep idx s.L m Y tau lmax X = .ok X) :
    RowsInSimplex X ∧ ∀ Z, RowsInSimplex Z → classObjective s.L m Y tau X ≤ classObjective s.L m Y tau Z := by
  obtain ⟨hL, hp⟩ := simplex_setup_L hS hg hist hs hW
  obtain ⟨X', h1, h2, h3⟩ := step_ineq hidx hd hL hp h0 hmax m Y ht X
  rw [hX] at h1
  cases h1
  exact ⟨h2, fun Z hZ => by have := h3 Z hZ; linarith⟩

/-- **Convergence of the iteration** from the starting point of the code, any number `k + 1` of iterations: the result is
feasible and its objective exceeds that of any feasible `Z` by at most `(1 + tau lmax) ‖Z - X0‖² / (k + 1)`. -/
theorem C61_convergence (X0 : Matrix (Fin n) (Fin d) ℝ) (k : ℕ) :
    ∃ X, fbIter idx s.L m Y tau lmax X0 (k + 1) = .ok X ∧ RowsInSimplex X ∧ ∀ Z, RowsInSimplex Z →
      classObjective s.L m Y tau X - classObjective s.L m Y tau Z ≤ (1 + tau * lmax) * sqDist Z X0 / (k + 1) := by
  obtain ⟨hL, hp⟩ := simplex_setup_L hS hg hist hs hW
  have hc : 0 < 1 + tau * lmax := by have := mul_nonneg ht.le h0; linarith
  have key : ∀ k, ∃ X, fbIter idx s.L m Y tau lmax X0 (k + 1) = .ok X ∧ RowsInSimplex X ∧ ∀ Z, RowsInSimplex Z →
      (k + 1) * (classObjective s.L m Y tau X - classObjective s.L m Y tau Z) + (1 + tau * lmax) * sqDist Z X ≤
        (1 + tau * lmax) * sqDist Z X0 := by
    intro k
    induction k with
    | zero =>
      obtain ⟨X', h1, h2, h3⟩ := step_ineq hidx hd hL hp h0 hmax m Y ht X0
      refine ⟨X', ?_, h2, fun Z hZ => ?_⟩
      · unfold fbIter
        simp only [fbIter]
        exact h1
      · have := h3 Z hZ
        push_cast
        linarith
    | succ k ih =>
      obtain ⟨X, i1, i2, i3⟩ := ih
      obtain ⟨X', h1, h2, h3⟩ := step_ineq hidx hd hL hp h0 hmax m Y ht X
      refine ⟨X', ?_, h2, fun Z hZ => ?_⟩
      · unfold fbIter
        rw [i1]
        exact h1
      · have a1 := i3 Z hZ
        have a2 := h3 Z hZ
        have a3 := h3 X i2
        have a5 : sqDist X X = 0 := by simp [sqDist]
        have a6 : 0 ≤ sqDist X X' := Finset.sum_nonneg fun v _ => Finset.sum_nonneg fun j _ => sq_nonneg _
        have a7 := mul_nonneg hc.le a6
        rw [a5] at a3
        have a8 : classObjective s.L m Y tau X' ≤ classObjective s.L m Y tau X := by linarith
        have hk : (0 : ℝ) ≤ k + 1 := by positivity
        have a9 := mul_le_mul_of_nonneg_left a8 hk
        push_cast
        linarith
  obtain ⟨X, h1, h2, h3⟩ := key k
  refine ⟨X, h1, h2, fun Z hZ => ?_⟩
  have hk : (0 : ℝ) < k + 1 := by positivity
  rw [le_div_iff₀ hk]
  have h4 := h3 Z hZ
  have h6 : 0 ≤ sqDist Z X := Finset.sum_nonneg fun v _ => Finset.sum_nonneg fun j _ => sq_nonneg _
  have h7 := mul_nonneg hc.le h6
  linarith

end History

/-- **The setup**: `tau <= 0` is a ValueError; otherwise, for non-negative labels, the starting point has the one-hot
encoding of the label in the rows of the measured vertices and zeros elsewhere, whatever the values of the other
measurements are. -/
theorem C61_setup (hn : 0 < n) (y : Fin n → ℤ) (m : Fin n → Bool) (tau : ℝ) :
    (tau ≤ 0 → simplexSetup y m tau = .error .valueError) ∧
    (0 < tau → (∀ v, m v = true → 0 ≤ y v) → ∃ (k : ℕ) (Y : Fin n → Fin k → ℝ), simplexSetup y m tau = .ok ⟨k, Y⟩ ∧ 0 < k ∧
      ∀ v j, Y v j = if m v = true ∧ (j.1 : ℤ) = y v then 1 else 0) := by
  refine ⟨fun h => if_pos h, fun h hy => ?_⟩
  obtain ⟨k, Y, h1, h2, -, h4⟩ := C60_logits hn fun v => if m v then (y v).toNat else 0
  have e : (fun v => ((if m v then (y v).toNat else 0 : ℕ) : ℤ)) = fun v => if m v then y v else 0 := by
    funext v
    split
    · rename_i hv
      exact Int.toNat_of_nonneg (hy v hv)
    · rfl
  rw [e] at h1
  refine ⟨k, fun v j => if m v then Y v j else 0, ?_, by have := h2 ⟨0, hn⟩; omega, fun v j => ?_⟩
  · unfold simplexSetup
    rw [if_neg (not_le.2 h), h1]
  · simp only [h4]
    by_cases hv : m v = true
    · have := hy v hv
      simp only [hv, if_true, true_and]
      refine if_congr ?_ rfl rfl
      omega
    · simp [hv]

/-! ### Witnesses -/

/-- A sorting function and an exact solver exist. -/
theorem exists_argsort (d : ℕ) : ∃ idx : (Fin d → ℝ) → Fin d → Fin d, IsArgsort idx :=
  ⟨fun y => Tuple.sort y, fun y => ⟨(Tuple.sort y).bijective, Tuple.monotone_sort y⟩⟩

theorem exists_cg (n : ℕ) : ∃ cg : Matrix (Fin n) (Fin n) ℝ → (Fin n → ℝ) → Fin n → ℝ, ExactCG cg := by
  classical
  refine ⟨fun A b => if h : ∃ x, A *ᵥ x = b then h.choose else 0, fun A b _ _ h => ?_⟩
  simp only [dif_pos h]
  exact h.choose_spec

/-- the ends of the path are measured -/
def ends : Fin 4 → Bool := ![true, false, false, true]

theorem path4_anchored : Anchored path4 ends := fun v => ⟨0, rfl, path4_connected v 0⟩

/-- All the hypotheses of C58 - C61 hold for a path of four vertices whose ends are measured, with labels 0 and 1. -/
example : ∃ (g : Graph 4 ℝ) (S : Solvers 4) (s : GState 4) (cg : Matrix (Fin 4) (Fin 4) ℝ → (Fin 4 → ℝ) → Fin 4 → ℝ)
    (idx : (Fin 2 → ℝ) → Fin 2 → Fin 2) (l : ℝ), g.Built ∧ NonnegW g.W.dense ∧ Sound S ∧
    s = runAll S [.computeFourierBasis none] (GState.ofGraph g) ∧ s.lapType = .combinatorial ∧ ExactCG cg ∧ IsArgsort idx ∧
    Anchored g.W.dense ends ∧ 0 ≤ l ∧ (∀ v, IsEigenvalue s.L v → v ≤ l) ∧ (∃ v, ends v = false) ∧
    2 ≤ Fintype.card (Unlabelled ends) := by
  obtain ⟨g, hg, hd, S, hS, s, hs, -, -, l, ⟨hl, hc, -, hmax⟩, -⟩ :=
    exists_setup path4 path4_nonneg (i := 0) (j := 1) (by decide) (by simp [path4])
  obtain ⟨cg, hcg⟩ := exists_cg 4
  obtain ⟨idx, hidx⟩ := exists_argsort 2
  exact ⟨g, S, s, cg, idx, l, hg, by rw [hd]; exact path4_nonneg, hS, hs, hc, hcg, hidx, by rw [hd]; exact path4_anchored, hl.le,
    hmax, ⟨1, rfl⟩, by decide⟩

end PyGSP
