import Verif.Props.BipartiteReduction
import Verif.Props.MultiresDefault
import Verif.Spec.Bipartite

/-!
# C154: the multiresolution of bipartite graphs with the default options
-/

namespace PyGSP

open Matrix Reduction Spec GState Gen Learning

variable {n k : ℕ}

namespace BipartiteReduction

/-- A vector that attains the largest value of the quadratic form is an eigenvector. -/
theorem quad_eq_top {L : Matrix (Fin n) (Fin n) ℝ} (hL : ∀ i j, L i j = L j i) {l : ℝ} (hl : ∀ m, IsEigenvalue L m → m ≤ l) {y : Fin n → ℝ} (hy : y ⬝ᵥ (L *ᵥ y) = l * (y ⬝ᵥ y)) :
    L *ᵥ y = l • y := by
  obtain ⟨e, U, hE, -⟩ := exists_eigh L hL
  have hUU : U * Uᵀ = 1 := mul_eq_one_comm.1 hE.orthonormal
  obtain ⟨c, hcdef⟩ : ∃ c, c = Uᵀ *ᵥ y := ⟨_, rfl⟩
  have hx : U *ᵥ c = y := by rw [hcdef, Matrix.mulVec_mulVec, hUU, Matrix.one_mulVec]
  have hLy : L *ᵥ y = U *ᵥ (Matrix.diagonal e *ᵥ c) := by
    conv_lhs => rw [← hx]
    rw [Matrix.mulVec_mulVec, hE.eig, Matrix.mulVec_mulVec]
  have h1 : y ⬝ᵥ (L *ᵥ y) = ∑ j, e j * c j ^ 2 := by
    rw [hLy, Matrix.dotProduct_mulVec, ← Matrix.mulVec_transpose, ← hcdef]
    simp only [dotProduct, Matrix.mulVec_diagonal]
    exact Finset.sum_congr rfl fun j _ => by ring
  have h2 : y ⬝ᵥ y = ∑ j, c j ^ 2 := by
    nth_rewrite 2 [← hx]
    rw [Matrix.dotProduct_mulVec, ← Matrix.mulVec_transpose, ← hcdef]
    simp only [dotProduct]
    exact Finset.sum_congr rfl fun j _ => by ring
  have h3 : ∑ j, (l - e j) * c j ^ 2 = 0 := by
    rw [h1, h2, Finset.mul_sum] at hy
    simp only [sub_mul, Finset.sum_sub_distrib]
    linarith
  have h4 : ∀ j, e j * c j = l * c j := fun j => by
    have := (Finset.sum_eq_zero_iff_of_nonneg fun j _ => mul_nonneg (sub_nonneg.2 (hl _ (hE.isEigenvalue j))) (sq_nonneg (c j))).1 h3 j (Finset.mem_univ _)
    rcases mul_eq_zero.1 this with h | h
    · rw [show e j = l by linarith]
    · rw [pow_eq_zero_iff two_ne_zero |>.1 h, mul_zero, mul_zero]
  rw [hLy, show Matrix.diagonal e *ᵥ c = l • c from funext fun j => by rw [Matrix.mulVec_diagonal, h4]; rfl, Matrix.mulVec_smul, hx]

/-- An eigenvector of the largest eigenvalue of a connected graph with two sides is positive on one side and negative on the other one. -/
theorem top_bipartite {W : Matrix (Fin n) (Fin n) ℝ} (hu : Undirected W) (hW : NonnegW W) (hcon : Connected W) {col : Fin n → Bool} (hcol : ∀ i j, W i j ≠ 0 → col i ≠ col j)
    {l : ℝ} (hl : ∀ m, IsEigenvalue (combLap W) m → m ≤ l) {x : Fin n → ℝ} (hx0 : x ≠ 0) (hxe : combLap W *ᵥ x = l • x) (hn : 0 < n) (i : Fin n) :
    (col i = col ⟨0, hn⟩ → 0 < x ⟨0, hn⟩ * x i) ∧ (col i ≠ col ⟨0, hn⟩ → x ⟨0, hn⟩ * x i < 0) := by
  have hLf : ∀ f : Fin n → ℝ, ∀ i, (combLap W *ᵥ f) i = ∑ j, W i j * (f i - f j) := fun f i => by
    rw [combLap_mulVec]
    exact Finset.sum_congr rfl fun j _ => by rw [KronClassical.wsym_of hu]
  have hLx : ∀ i, ∑ j, W i j * (x i - x j) = l * x i := fun i => by
    rw [← hLf]
    exact congrFun hxe i
  set z : Fin n → ℝ := fun i => if col i = col ⟨0, hn⟩ then 1 else -1 with hz
  have hz2 : ∀ i, z i * z i = 1 := fun i => by simp only [hz]; split <;> norm_num
  have hzz : ∀ i j, W i j ≠ 0 → z j = - z i := fun i j h => by
    have := hcol i j h
    simp only [hz]
    rcases hi : col i <;> rcases hj : col j <;> rcases h0 : col ⟨0, hn⟩ <;> simp_all
  set y : Fin n → ℝ := fun i => z i * |x i| with hy
  have hyy : ∀ i, y i * y i = x i * x i := fun i => by
    simp only [hy]
    have := hz2 i
    have h2 := abs_mul_abs_self (x i)
    linear_combination |x i| * |x i| * this + h2
  have hLs : ∀ i j, combLap W i j = combLap W j i := fun i j => combLap_symm W i j
  have hquad : y ⬝ᵥ (combLap W *ᵥ y) ≤ l * (y ⬝ᵥ y) := quad_le_of_eig_le hLs hl y
  have hBy : y ⬝ᵥ (combLap W *ᵥ y) = ∑ i, y i * ∑ j, W i j * (y i - y j) := Finset.sum_congr rfl fun i _ => by rw [hLf]
  have hyx : y ⬝ᵥ y = ∑ i, x i * x i := Finset.sum_congr rfl fun i _ => hyy i
  have hBx : ∑ i, x i * ∑ j, W i j * (x i - x j) = l * ∑ i, x i * x i := by
    rw [Finset.mul_sum]
    exact Finset.sum_congr rfl fun i _ => by rw [hLx]; ring
  have hgap : ∑ i, y i * ∑ j, W i j * (y i - y j) - ∑ i, x i * ∑ j, W i j * (x i - x j) = ∑ i, ∑ j, W i j * (x i * x j + |x i| * |x j|) := by
    rw [← Finset.sum_sub_distrib]
    refine Finset.sum_congr rfl fun i _ => ?_
    rw [Finset.mul_sum, Finset.mul_sum, ← Finset.sum_sub_distrib]
    refine Finset.sum_congr rfl fun j _ => ?_
    by_cases h : W i j = 0
    · rw [h]; ring
    · have h1 := hzz i j h
      have h2 := hyy i
      have h3 : y i * y j = - (|x i| * |x j|) := by
        simp only [hy]
        rw [h1]
        linear_combination (- |x i| * |x j|) * hz2 i
      linear_combination W i j * h2 - W i j * h3
  have hnn : ∀ i j, 0 ≤ W i j * (x i * x j + |x i| * |x j|) := fun i j => mul_nonneg (hW i j) (by
    rw [← abs_mul]; linarith [neg_abs_le (x i * x j)])
  have h0x : ∑ i, ∑ j, W i j * (x i * x j + |x i| * |x j|) = 0 := by
    refine le_antisymm ?_ (Finset.sum_nonneg fun i _ => Finset.sum_nonneg fun j _ => hnn i j)
    rw [← hgap, hBx, ← hBy, ← hyx]
    linarith
  have hyq : y ⬝ᵥ (combLap W *ᵥ y) = l * (y ⬝ᵥ y) := by
    rw [hBy, hyx, ← hBx]
    linarith
  have hyeig : ∀ i, ∑ j, W i j * (y i - y j) = l * y i := fun i => by
    rw [← hLf]
    exact congrFun (quad_eq_top hLs hl hyq) i
  have hedge : ∀ i j, W i j ≠ 0 → x i * x j + |x i| * |x j| = 0 := fun i j h => by
    have h1 := (Finset.sum_eq_zero_iff_of_nonneg fun i _ => Finset.sum_nonneg fun j _ => hnn i j).1 h0x i (Finset.mem_univ _)
    have h2 := (Finset.sum_eq_zero_iff_of_nonneg fun j _ => hnn i j).1 h1 j (Finset.mem_univ _)
    exact (mul_eq_zero.1 h2).resolve_left h
  -- a zero spreads to the neighbours
  have hspread : ∀ i j, W i j ≠ 0 → x i = 0 → x j = 0 := fun i j hij hi => by
    have hyi : y i = 0 := by simp only [hy]; rw [hi, abs_zero, mul_zero]
    have h1 := hyeig i
    rw [hyi, mul_zero] at h1
    have h2 : ∑ j, W i j * |x j| = 0 := by
      have : ∀ j, W i j * |x j| = z i * (W i j * (0 - y j)) := fun j => by
        by_cases h : W i j = 0
        · rw [h]; ring
        · simp only [hy]
          rw [hzz i j h]
          linear_combination (- W i j * |x j|) * hz2 i
      rw [Finset.sum_congr rfl fun j _ => this j, ← Finset.mul_sum, h1, mul_zero]
    have h3 := (Finset.sum_eq_zero_iff_of_nonneg fun j _ => mul_nonneg (hW i j) (abs_nonneg (x j))).1 h2 j (Finset.mem_univ _)
    exact abs_eq_zero.1 ((mul_eq_zero.1 h3).resolve_left hij)
  have hne : ∀ i, x i ≠ 0 := fun i hi => by
    have hall : ∀ j, x j = 0 := fun j => by
      have := hcon i j
      induction this with
      | refl => exact hi
      | tail _ hbc ih =>
        rcases hbc with h | h
        · exact hspread _ _ h ih
        · exact hspread _ _ (by rw [hu]; exact h) ih
    exact hx0 (funext hall)
  -- the signs
  have hsgn : ∀ i j, W i j ≠ 0 → 0 < (z i * x i) * (z j * x j) := fun i j h => by
    have h1 := hedge i j h
    rw [hzz i j h]
    have h2 : (z i * x i) * (- z i * x j) = |x i| * |x j| := by linear_combination (- x i * x j) * hz2 i - h1
    rw [h2]
    exact mul_pos (abs_pos.2 (hne i)) (abs_pos.2 (hne j))
  have hz0 : z ⟨0, hn⟩ = 1 := by simp [hz]
  have hall : 0 < (z ⟨0, hn⟩ * x ⟨0, hn⟩) * (z i * x i) := by
    have := hcon ⟨0, hn⟩ i
    induction this with
    | refl => rw [hz0]; simpa using mul_self_pos.2 (hne ⟨0, hn⟩)
    | @tail b d _ hbc ih =>
      have h3 : 0 < (z b * x b) * (z d * x d) := by
        rcases hbc with h | h
        · exact hsgn _ _ h
        · rw [mul_comm]; exact hsgn _ _ h
      have h4 := mul_pos ih h3
      have h5 : 0 < (z b * x b) * (z b * x b) := by
        refine mul_self_pos.2 (mul_ne_zero (fun h => ?_) (hne b))
        have := hz2 b
        rw [h] at this
        simp at this
      have h6 : 0 < ((z ⟨0, hn⟩ * x ⟨0, hn⟩) * (z d * x d)) * ((z b * x b) * (z b * x b)) := by linarith [show
        (z ⟨0, hn⟩ * x ⟨0, hn⟩) * (z b * x b) * ((z b * x b) * (z d * x d)) = ((z ⟨0, hn⟩ * x ⟨0, hn⟩) * (z d * x d)) * ((z b * x b) * (z b * x b)) by ring]
      exact (pos_iff_pos_of_mul_pos h6).2 h5
  rw [hz0, one_mul] at hall
  constructor
  · intro h
    have : z i = 1 := by simp [hz, h]
    rwa [this, one_mul] at hall
  · intro h
    have : z i = -1 := by simp [hz, h]
    rw [this] at hall
    show x ⟨0, hn⟩ * x i < 0
    linarith


end BipartiteReduction

/-- **C154** The largest Laplacian eigenvalue of a connected bipartite graph is simple: two eigenvectors are proportional. -/
theorem C154_simple {W : Matrix (Fin n) (Fin n) ℝ} (hu : Undirected W) (hW : NonnegW W) (hcon : Connected W) (hb : Bipartite W)
    {l : ℝ} (hl : ∀ m, IsEigenvalue (combLap W) m → m ≤ l) {x y : Fin n → ℝ} (hx0 : x ≠ 0) (hx : combLap W *ᵥ x = l • x) (hy : combLap W *ᵥ y = l • y) : ∃ t : ℝ, y = t • x := by
  obtain ⟨col, hcol⟩ := hb
  rcases Nat.eq_zero_or_pos n with h0 | hn
  · subst h0
    exact ⟨0, funext fun i => i.elim0⟩
  have hne : x ⟨0, hn⟩ ≠ 0 := fun h => by
    have := (BipartiteReduction.top_bipartite hu hW hcon hcol hl hx0 hx hn ⟨0, hn⟩).1 rfl
    rw [h, mul_zero] at this
    exact lt_irrefl _ this
  refine ⟨y ⟨0, hn⟩ / x ⟨0, hn⟩, ?_⟩
  by_contra hcon'
  have hd0 : y - (y ⟨0, hn⟩ / x ⟨0, hn⟩) • x ≠ 0 := sub_ne_zero.2 hcon'
  have := (BipartiteReduction.top_bipartite hu hW hcon hcol hl hd0 (by
    rw [Matrix.mulVec_sub, Matrix.mulVec_smul, hx, hy, smul_sub, smul_comm]) hn ⟨0, hn⟩).1 rfl
  simp only [Pi.sub_apply, Pi.smul_apply, smul_eq_mul] at this
  rw [div_mul_cancel₀ _ hne, sub_self, mul_zero] at this
  exact lt_irrefl _ this

/-- **C154** With `compute_full_eigen=False`: if `eigs` returns an eigenvector of the largest eigenvalue of the connected bipartite graph, one level keeps exactly the vertices on the side of vertex 0. -/
theorem C154_default {R : Type} {E : Env} (hE : ∀ n, Sound (E.S n)) (hconv : ∀ n, Converges (E.S n)) {o : MrOptions} (h1 : o.sparsify = false)
    (h2 : o.knownDownsampling = true) (h3 : o.knownReduction = true) (h4 : o.fullEigen = false) (h5 : 0 < o.regEps)
    {g : Graph n ℝ} (hg : g.Built) (hl : g.lapType = .combinatorial) (hu : Undirected g.W.dense) (hW : NonnegW g.W.dense) (hcon : Connected g.W.dense)
    {col : Fin n → Bool} (hcol : ∀ i j, g.W.dense i j ≠ 0 → col i ≠ col j) (c : Fin n → R) (hn : 3 ≤ n)
    (hside : ∃ v : Fin n, v.1 ≠ 0 ∧ col v = col ⟨0, by omega⟩)
    {v : Fin n → ℝ} (hv : ∀ t, E.eigs n t (combLap g.W.dense) = some v) {l : ℝ} (hlt : ∀ m, IsEigenvalue (combLap g.W.dense) m → m ≤ l) (hv0 : v ≠ 0) (hve : combLap g.W.dense *ᵥ v = l • v) :
    ∃ (g0 g1 : Node R) (f : Fin g1.n → Fin n), graphMultiresolution E o 1 (GState.ofGraph g) (.rows c) = ([g0, g1], none) ∧ StrictMono f ∧
      (∀ i, (∃ a, f a = i) ↔ col i = col ⟨0, by omega⟩) ∧ g1.idx = (fun a => (f a).1) ∧ g1.coords = .rows (fun a => c (f a)) := by
  have hn0 : 0 < n := by omega
  have htop := BipartiteReduction.top_bipartite hu hW hcon hcol hlt hv0 hve hn0
  have hz : v ⟨0, hn0⟩ ≠ 0 := fun h => by
    have := (htop ⟨0, hn0⟩).1 rfl
    rw [h, mul_zero] at this
    exact lt_irrefl _ this
  have hsq : npSign (v ⟨0, hn0⟩) * npSign (v ⟨0, hn0⟩) = 1 := by
    unfold npSign
    split
    · norm_num
    · split
      · norm_num
      · exact absurd (le_antisymm (by linarith) (by linarith)) hz
  have hq := RingPyramid.npSign_sq hz
  have hprod : ∀ i, (v ⟨0, hn0⟩ * npSign (v ⟨0, hn0⟩)) * (v i * npSign (v ⟨0, hn0⟩)) = v ⟨0, hn0⟩ * v i := fun i => by
    linear_combination (v ⟨0, hn0⟩ * v i) * hsq
  have hin : ∀ i, col i = col ⟨0, hn0⟩ → 0 < v i * npSign (v ⟨0, hn0⟩) := fun i h => by
    have := (htop i).1 h
    rw [← hprod] at this
    exact (pos_iff_pos_of_mul_pos this).1 hq
  have hout : ∀ i, col i ≠ col ⟨0, hn0⟩ → v i * npSign (v ⟨0, hn0⟩) < 0 := fun i h => by
    have := (htop i).2 h
    rw [← hprod] at this
    by_contra hc
    exact absurd (mul_nonneg hq.le (not_lt.1 hc)) (not_le.2 this)
  obtain ⟨v1, hv1, hv1'⟩ := hside
  obtain ⟨v2, hv2⟩ : ∃ v2, col v2 ≠ col ⟨0, hn0⟩ := by
    rcases (hcon ⟨0, hn0⟩ v1).cases_head with h | ⟨y, h, -⟩
    · exact absurd (congrArg Fin.val h).symm hv1
    · exact ⟨y, by
        rcases h with h | h
        · exact (hcol _ _ h).symm
        · exact hcol _ _ h⟩
  obtain ⟨g0, g1, f, r1, r2, r3, r4, r5⟩ := C65_one_level_default hE hconv h1 h2 h3 h4 h5 hg hl hu hW hcon c hn hv ⟨v1, hv1, (hin v1 hv1').le⟩ ⟨v2, hout v2 hv2⟩
  refine ⟨g0, g1, f, r1, r2, fun i => (r3 i).trans ⟨fun h => ?_, fun h => (hin i h).le⟩, r4, r5⟩
  by_contra hc
  exact absurd h (not_le.2 (hout i hc))

/-- the hypotheses of `C154_default` and of `C154_simple` are met: the path with three vertices -/
example (pop : (n : ℕ) → Pop n) : ∃ (E : Env) (g : Graph 3 ℝ) (g0 g1 : Node ℕ) (f : Fin g1.n → Fin 3), (∀ n, Sound (E.S n)) ∧ g.W.dense = path3 ∧
    graphMultiresolution E { sparsify := false } 1 (GState.ofGraph g) (.rows fun i => i.1) = ([g0, g1], none) ∧ StrictMono f ∧ ∀ i, (∃ a, f a = i) ↔ i ≠ 1 := by
  choose S hS using fun n => exists_sound n
  let w : (n : ℕ) → Fin n → ℝ := fun n i => if i.1 = 1 then -2 else 1
  let E : Env := ⟨S, fun n _ _ => some (w n), fun n L => 0, pop, fun _ _ _ => []⟩
  obtain ⟨g, hg, hd, hl⟩ := Graph.exists_built (K := ℝ) path3
  have hL : ∀ x : Fin 3 → ℝ, combLap path3 *ᵥ x = ![x 0 - x 1, 2 * x 1 - x 0 - x 2, x 2 - x 1] := fun x => by
    funext i
    rw [combLap_mulVec]
    fin_cases i <;> simp [Fin.sum_univ_three, wsym, path3]
    ring
  obtain ⟨g0, g1, f, r1, r2, r3, -⟩ := C154_default (R := ℕ) (E := E) (fun n => (hS n).1) (fun n => (hS n).2) (o := { sparsify := false }) rfl rfl rfl rfl (by norm_num) hg hl
    (by rw [hd]; exact path3_undirected) (by rw [hd]; exact path3_nonneg) (by rw [hd]; exact path3_connected) (col := fun i => decide (i ≠ 1))
    (fun i j h => by
      rw [hd] at h
      fin_cases i <;> fin_cases j <;> simp_all [path3]) (fun i => i.1) le_rfl ⟨2, by decide, by decide⟩ (v := w 3) (fun _ => rfl) (l := 3)
    (fun m hm => by
      rw [hd] at hm
      obtain ⟨x, hx, he⟩ := hm
      rw [hL] at he
      have e0 := congrFun he 0
      have e1 := congrFun he 1
      have e2 := congrFun he 2
      simp at e0 e1 e2
      have hpos : 0 < x 0 ^ 2 + x 1 ^ 2 + x 2 ^ 2 := by
        by_contra hc
        have a0 : x 0 = 0 := by nlinarith [sq_nonneg (x 0), sq_nonneg (x 1), sq_nonneg (x 2)]
        have a1 : x 1 = 0 := by nlinarith [sq_nonneg (x 0), sq_nonneg (x 1), sq_nonneg (x 2)]
        have a2 : x 2 = 0 := by nlinarith [sq_nonneg (x 0), sq_nonneg (x 1), sq_nonneg (x 2)]
        exact hx (funext fun i => by fin_cases i <;> simp [a0, a1, a2])
      have h3 : m * (x 0 ^ 2 + x 1 ^ 2 + x 2 ^ 2) ≤ 3 * (x 0 ^ 2 + x 1 ^ 2 + x 2 ^ 2) := by
        have : m * (x 0 ^ 2 + x 1 ^ 2 + x 2 ^ 2) = 3 * (x 0 ^ 2 + x 1 ^ 2 + x 2 ^ 2) - ((x 0 + x 1 + x 2) ^ 2 + (x 0 - x 2) ^ 2) := by
          linear_combination (-x 0) * e0 - x 1 * e1 - x 2 * e2
        rw [this]
        linarith [sq_nonneg (x 0 + x 1 + x 2), sq_nonneg (x 0 - x 2)]
      exact le_of_mul_le_mul_right h3 hpos)
    (fun h => by have := congrFun h 0; simp [w] at this)
    (by
      rw [hd, hL]
      funext i
      fin_cases i <;> norm_num [w])
  exact ⟨E, g, g0, g1, f, fun n => (hS n).1, hd, r1, r2, fun i => (r3 i).trans (by fin_cases i <;> decide)⟩

end PyGSP
