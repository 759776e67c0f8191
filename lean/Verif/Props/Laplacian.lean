import Verif.Lemmas.Bounds
import Mathlib.Analysis.Real.Sqrt
import Mathlib.Tactic.FinCases

/-!
# C10 - C15, C22, C23, C53: Laplacians, the differential operator, bounds on the spectrum, symmetrization
-/

namespace PyGSP

open Matrix Spec

variable {n : ℕ}

/-! ## C10 -/

/-- The combinatorial Laplacian is symmetric, its rows sum to zero and its off-diagonal entries are minus
the mean of the two weights. (These three facts determine it.) -/
theorem C10_combinatorial (W : Sp n n ℝ) :
    ∃ L, laplacian W .combinatorial = .ok L ∧ (∀ i j, L i j = L j i) ∧ (∀ i, ∑ j, L i j = 0) ∧
      ∀ i j, i ≠ j → L i j = -((W.dense i j + W.dense j i) / 2) := by
  refine ⟨_, laplacian_comb W, combLap_symm _, ?_, ?_⟩
  · intro i
    simp only [combLap, Matrix.of_apply, Finset.sum_sub_distrib, Finset.sum_ite_eq, Finset.mem_univ, if_true,
      sum_wsym, sub_self]
  · intro i j hij
    simp only [combLap, Matrix.of_apply, if_neg hij, wsym]
    ring

/-- Self-loops do not influence the combinatorial Laplacian. -/
theorem C10_loops_invisible (W W' : Sp n n ℝ) (h : ∀ i j, i ≠ j → W.dense i j = W'.dense i j) :
    laplacian W .combinatorial = laplacian W' .combinatorial := by
  obtain ⟨L, h1, -, h3, h4⟩ := C10_combinatorial W
  obtain ⟨L', h1', -, h3', h4'⟩ := C10_combinatorial W'
  rw [h1, h1']
  congr 1
  have hoff : ∀ i j, i ≠ j → L i j = L' i j := fun i j hij => by
    rw [h4 i j hij, h4' i j hij, h i j hij, h j i (Ne.symm hij)]
  ext i j
  by_cases hij : i = j
  · subst hij
    have e1 := Finset.sum_erase_add Finset.univ (L i) (Finset.mem_univ i)
    have e2 := Finset.sum_erase_add Finset.univ (L' i) (Finset.mem_univ i)
    rw [h3] at e1
    rw [h3'] at e2
    have e3 : ∑ x ∈ Finset.univ.erase i, L i x = ∑ x ∈ Finset.univ.erase i, L' i x :=
      Finset.sum_congr rfl fun x hx => hoff i x (Ne.symm (Finset.ne_of_mem_erase hx))
    linarith
  · exact hoff i j hij

/-- any other name raises ValueError -/
theorem C10_unknown_type (W : Sp n n ℝ) (s : String) : laplacian W (.other s) = .error .valueError := rfl

/-- a directed graph with a self-loop: the Laplacian of the arc `0 → 1` of weight 2 -/
example : ∃ W : Sp 2 2 ℝ, W.dense = !![5, 2; 0, 0] ∧ laplacian W .combinatorial = .ok !![1, -1; -1, 1] := by
  refine ⟨Sp.ofDense !![5, 2; 0, 0], Sp.dense_ofDense _, ?_⟩
  rw [laplacian_comb, Sp.dense_ofDense]
  congr 1
  ext i j
  fin_cases i <;> fin_cases j <;> simp [combLap, wdeg, wsym] <;> norm_num

/-! ## C11 -/

/-- The quadratic form of the combinatorial Laplacian is the Dirichlet form. -/
theorem C11_quadratic_form (W : Sp n n ℝ) :
    ∃ L, laplacian W .combinatorial = .ok L ∧
      ∀ x, x ⬝ᵥ (L *ᵥ x) = 1 / 2 * ∑ i, ∑ j, W.dense i j * (x i - x j) ^ 2 :=
  ⟨_, laplacian_comb W, fun x => combLap_quad _ x⟩

/-- With non-negative weights it is positive semi-definite. -/
theorem C11_psd (W : Sp n n ℝ) (hW : NonnegW W.dense) :
    ∃ L, laplacian W .combinatorial = .ok L ∧ PSD L :=
  ⟨_, laplacian_comb W, fun x => by rw [combLap_quad]; exact dirichlet_nonneg hW x⟩

/-- Non-negativity is needed: a negative weight gives a negative energy. -/
theorem C11_negative_weights_violated :
    ∃ (W : Sp 2 2 ℝ) (L : Matrix (Fin 2) (Fin 2) ℝ), laplacian W .combinatorial = .ok L ∧ ¬ PSD L := by
  refine ⟨Sp.ofDense !![0, -1; -1, 0], _, laplacian_comb _, fun h => ?_⟩
  have := h ![1, 0]
  rw [combLap_quad, Sp.dense_ofDense] at this
  simp [dirichlet, Fin.sum_univ_two] at this
  norm_num at this

example : NonnegW (Sp.ofDense !![(0 : ℝ), 1; 2, 3]).dense := by
  rw [Sp.dense_ofDense]; intro i j; fin_cases i <;> fin_cases j <;> simp

/-! ## C12 -/

/-- The normalized Laplacian of a graph with non-negative weights: entries, symmetry, positive
semi-definiteness and spectrum in `[0, 2]`. -/
theorem C12_normalized (W : Sp n n ℝ) (hW : NonnegW W.dense) :
    ∃ L, laplacian W .normalized = .ok L ∧
      (∀ i j, wdeg W.dense i ≠ 0 → wdeg W.dense j ≠ 0 →
        L i j = (if i = j then 1 else 0)
          - wsym W.dense i j / (Real.sqrt (wdeg W.dense i) * Real.sqrt (wdeg W.dense j))) ∧
      (∀ i j, wdeg W.dense i = 0 → L i j = 0 ∧ L j i = 0) ∧
      (∀ i j, L i j = L j i) ∧ PSD L ∧ ∀ l, IsEigenvalue L l → 0 ≤ l ∧ l ≤ 2 := by
  refine ⟨_, laplacian_norm W hW, ?_, ?_, ?_, ?_⟩
  · intro i j hi hj
    have hsi : Real.sqrt (wdeg W.dense i) ≠ 0 := by
      rw [Real.sqrt_ne_zero (wdeg_nonneg hW i)]; exact hi
    have hsj : Real.sqrt (wdeg W.dense j) ≠ 0 := by
      rw [Real.sqrt_ne_zero (wdeg_nonneg hW j)]; exact hj
    simp only [Matrix.of_apply, combLap, nscale, if_neg hi, if_neg hj]
    by_cases hij : i = j
    · subst hij
      have := Real.mul_self_sqrt (wdeg_nonneg hW i)
      simp only [if_true]
      field_simp
      rw [pow_two, this]
    · simp only [if_neg hij]
      field_simp
      ring
  · intro i j hi
    simp [nscale, hi]
  · intro i j
    simp only [Matrix.of_apply]
    rw [combLap_symm]; ring
  · have hpsd : PSD (Matrix.of fun i j => nscale W.dense i * combLap W.dense i j * nscale W.dense j) := by
      intro x
      rw [scaled_quad, combLap_quad]
      exact dirichlet_nonneg hW _
    exact ⟨hpsd, fun l hl => ⟨eig_nonneg hpsd hl, eig_le_of_quad_le (nscale_quad_le hW) hl⟩⟩

/-- the single edge: the bound 2 is attained -/
example : ∃ (W : Sp 2 2 ℝ) (L : Matrix (Fin 2) (Fin 2) ℝ), NonnegW W.dense ∧ laplacian W .normalized = .ok L ∧
    IsEigenvalue L 2 := by
  have hn : NonnegW (Sp.ofDense !![(0 : ℝ), 1; 1, 0]).dense := by
    rw [Sp.dense_ofDense]; intro i j; fin_cases i <;> fin_cases j <;> simp
  refine ⟨Sp.ofDense !![0, 1; 1, 0], _, hn, laplacian_norm _ hn, ![1, -1], ?_, ?_⟩
  · intro h; have := congrFun h 0; simp at this
  · rw [Sp.dense_ofDense]
    ext i
    fin_cases i <;> simp [Matrix.mulVec, dotProduct, Fin.sum_univ_two, combLap, nscale, wdeg, wsym] <;> norm_num

/-! ## C13 -/

/-- `D` has one column per edge and `D Dᵀ = L`. -/
theorem C13_diff_operator (g : Graph n ℝ) (hg : g.Built) (hW : NonnegW g.W.dense) :
    ∃ (m : ℕ) (D : Sp n m ℝ) (L : Matrix (Fin n) (Fin n) ℝ), g.diffOp = .ok ⟨m, D⟩ ∧ m = g.nEdges ∧
      laplacian g.W g.lapType = .ok L ∧ D.dense * D.denseᵀ = L := by
  obtain ⟨es, h1, h2, -, -⟩ := C04_edge_list g hg
  have hlt := hg.lapType_known
  refine ⟨es.length, diffMatrix g.W g.lapType es, Matrix.of fun a b =>
    vscale g.W.dense g.lapType a * combLap g.W.dense a b * vscale g.W.dense g.lapType b, ?_, h2, ?_, ?_⟩
  · unfold Graph.diffOp
    rw [h1]
    rcases hlt with h | h <;> rw [h]
  · rcases hlt with h | h <;> rw [h]
    · rw [laplacian_comb]
      congr 1
      ext a b
      simp [vscale]
    · rw [laplacian_norm _ hW]
      rfl
  · ext a b
    exact diff_mul_transpose g hg hW hlt h1 a b

/-- After `compute_laplacian` failed on an unknown name, `compute_differential_operator` raises ValueError. -/
theorem C13_unknown_type (g : Graph n ℝ) (s : String) (hlt : g.lapType = .other s) (hg : ∃ es, g.getEdgeList = .ok es) :
    g.diffOp = .error .valueError := by
  obtain ⟨es, h⟩ := hg
  unfold Graph.diffOp
  rw [h, hlt]

/-- a directed graph with a self-loop, both types -/
example (lt : LapType) (hlt : lt = .combinatorial ∨ lt = .normalized) :
    ∃ g : Graph 3 ℝ, g.Built ∧ NonnegW g.W.dense ∧ g.lapType = lt ∧ isDirected g.W = true := by
  obtain ⟨g, hg, hd, hl⟩ := Graph.exists_built (K := ℝ) !![1, 2, 0; 0, 0, 3; 0, 0, 0] lt hlt
  refine ⟨g, hg, ?_, hl, ?_⟩
  · rw [hd]; intro i j; fin_cases i <;> fin_cases j <;> simp
  · rw [C03_is_directed_iff, hd]
    intro h
    have := h 0 1
    simp at this

/-! ## C14 -/

open Classical in
/-- The gradient on edge `k = (s, t, w)`; `c` is `√2` for directed graphs. -/
theorem C14_grad (g : Graph n ℝ) (hg : g.Built) (hW : NonnegW g.W.dense) :
    ∃ es, g.getEdgeList = .ok es ∧ ∃ D : Sp n es.length ℝ, g.diffOp = .ok ⟨es.length, D⟩ ∧
      ∀ (x : Fin n → ℝ) (k : Fin es.length),
        let s := (es.get k).1
        let t := (es.get k).2.1
        let w := (es.get k).2.2
        let c := if Undirected g.W.dense then 1 else Real.sqrt 2
        (g.lapType = .combinatorial → grad D x k = Real.sqrt w * (x t - x s) / c) ∧
        (g.lapType = .normalized → grad D x k = Real.sqrt w *
          (x t / Real.sqrt (wdeg g.W.dense t) - x s / Real.sqrt (wdeg g.W.dense s)) / c) := by
  obtain ⟨es, h1, h2, -, h4⟩ := C04_edge_list g hg
  have hlt := hg.lapType_known
  refine ⟨es, h1, diffMatrix g.W g.lapType es, ?_, ?_⟩
  · unfold Graph.diffOp
    rw [h1]
    rcases hlt with h | h <;> rw [h]
  · intro x k
    have hmem : es.get k ∈ es := List.get_mem _ _
    have hc : dirScale g.W = if Undirected g.W.dense then 1 else Real.sqrt 2 := by
      unfold dirScale
      by_cases hd : isDirected g.W = true
      · rw [if_pos hd, if_neg ((C03_is_directed_iff _).1 hd)]
      · rw [if_neg hd, if_pos (by by_contra h; exact hd ((C03_is_directed_iff _).2 h))]
    have hgrad : grad (diffMatrix g.W g.lapType es) x k =
        (diffValues g.W g.lapType (es.get k)).1 * x (es.get k).1
          + (diffValues g.W g.lapType (es.get k)).2 * x (es.get k).2.1 := by
      simp only [grad, Matrix.mulVec, dotProduct, Matrix.transpose_apply, diffMatrix_dense, add_mul, ite_mul,
        zero_mul, Finset.sum_add_distrib, Finset.sum_ite_eq, Finset.mem_univ, if_true]
    rw [hgrad]
    generalize es.get k = e at hmem
    obtain ⟨s, t, w⟩ := e
    have hw : 0 ≤ w := by
      have := (h4 s t w).1 hmem
      rw [← this.1]; exact hW s t
    rw [diffValues_eq g.W g.lapType hlt s t hw, hc]
    simp only
    refine ⟨fun h => ?_, fun h => ?_⟩
    · rw [h]; simp only [vscale]; ring
    · rw [h]
      have hv : ∀ i, vscale g.W.dense .normalized i = 1 / Real.sqrt (wdeg g.W.dense i) := by
        intro i
        simp only [vscale, nscale]
        split
        · rename_i h0; rw [h0]; simp
        · rfl
      rw [hv, hv]; ring

/-- `div` is the adjoint of `grad`, for any operator. -/
theorem C14_div_adjoint {m : ℕ} (D : Sp n m ℝ) (x : Fin n → ℝ) (y : Fin m → ℝ) :
    grad D x ⬝ᵥ y = x ⬝ᵥ div D y := by
  unfold grad div
  rw [Matrix.mulVec_transpose, ← Matrix.dotProduct_mulVec]

/-- `div(grad(x)) = L x` and `dirichlet_energy(x) = ‖grad x‖²`. -/
theorem C14_div_grad (g : Graph n ℝ) (hg : g.Built) (hW : NonnegW g.W.dense) :
    ∃ (m : ℕ) (D : Sp n m ℝ) (L : Matrix (Fin n) (Fin n) ℝ), g.diffOp = .ok ⟨m, D⟩ ∧
      laplacian g.W g.lapType = .ok L ∧
      (∀ x, div D (grad D x) = L *ᵥ x) ∧ ∀ x, dirichletEnergy L x = ∑ k, grad D x k ^ 2 := by
  obtain ⟨m, D, L, h1, -, h3, h4⟩ := C13_diff_operator g hg hW
  have hdg : ∀ x, div D (grad D x) = L *ᵥ x := by
    intro x
    rw [← h4, ← Matrix.mulVec_mulVec]; rfl
  refine ⟨m, D, L, h1, h3, hdg, fun x => ?_⟩
  unfold dirichletEnergy
  rw [← hdg, ← C14_div_adjoint]
  simp only [dotProduct, pow_two]

/-- The length checks of `grad`, `div`, `dirichlet_energy`: anything but the right length is a ValueError. -/
theorem C14_lengths {m : ℕ} (D : Sp n m ℝ) (L : Matrix (Fin n) (Fin n) ℝ) (x : Rows ℝ) :
    (gradPy D x = .error .valueError ↔ x.len ≠ n) ∧ (dirichletEnergyPy L x = .error .valueError ↔ x.len ≠ n) ∧
    (divPy D x = .error .valueError ↔ x.len ≠ m) := by
  unfold gradPy dirichletEnergyPy divPy checkSignal
  refine ⟨?_, ?_, ?_⟩
  · by_cases h : x.len = n
    · rw [dif_pos h]; simp [h, bind, Except.bind, pure, Except.pure]
    · rw [dif_neg h]; simp [h, bind, Except.bind]
  · by_cases h : x.len = n
    · rw [dif_pos h]; simp [h, bind, Except.bind, pure, Except.pure]
    · rw [dif_neg h]; simp [h, bind, Except.bind]
  · by_cases h : x.len = m
    · rw [dif_pos h]; simp [h]
    · rw [dif_neg h]; simp [h]

/-- The calls with arrays of the right length: `grad` succeeds, `div` of the result is `L x`, the energy is the sum of the squares of the gradient, and
`div` is the adjoint of `grad`. -/
theorem C14_calls (g : Graph n ℝ) (hg : g.Built) (hW : NonnegW g.W.dense) :
    ∃ (m : ℕ) (D : Sp n m ℝ) (L : Matrix (Fin n) (Fin n) ℝ), g.diffOp = .ok ⟨m, D⟩ ∧ laplacian g.W g.lapType = .ok L ∧
      ∀ x : Fin n → ℝ, ∃ p, gradPy D ⟨n, x⟩ = .ok p ∧ divPy D ⟨m, p⟩ = .ok (L *ᵥ x) ∧ dirichletEnergyPy L ⟨n, x⟩ = .ok (∑ k, p k ^ 2) ∧
        ∀ y : Fin m → ℝ, ∃ q, divPy D ⟨m, y⟩ = .ok q ∧ p ⬝ᵥ y = x ⬝ᵥ q := by
  obtain ⟨m, D, L, h1, h2, h3, h4⟩ := C14_div_grad g hg hW
  have hdiv : ∀ y : Fin m → ℝ, divPy D ⟨m, y⟩ = .ok (div D y) := fun y => by
    unfold divPy
    rw [dif_pos rfl]
    rfl
  refine ⟨m, D, L, h1, h2, fun x => ⟨grad D x, ?_, ?_, ?_, fun y => ⟨div D y, hdiv y, C14_div_adjoint D x y⟩⟩⟩
  · unfold gradPy checkSignal
    simp only [dite_true]
    rfl
  · rw [hdiv, h3]
  · rw [← h4]
    unfold dirichletEnergyPy checkSignal
    simp only [dite_true]
    rfl

/-- The energy of the normalized Laplacian, as it is: each value is divided by the *square root* of the
degree. -/
theorem C14_normalized_energy (W : Sp n n ℝ) (hW : NonnegW W.dense) :
    ∃ L, laplacian W .normalized = .ok L ∧ ∀ x, dirichletEnergy L x =
      1 / 2 * ∑ i, ∑ j, W.dense i j *
        (x i / Real.sqrt (wdeg W.dense i) - x j / Real.sqrt (wdeg W.dense j)) ^ 2 := by
  refine ⟨_, laplacian_norm W hW, fun x => ?_⟩
  unfold dirichletEnergy
  rw [scaled_quad, combLap_quad]
  unfold dirichlet
  have hv : ∀ i, nscale W.dense i * x i = x i / Real.sqrt (wdeg W.dense i) := by
    intro i
    simp only [nscale]
    split
    · rename_i h0; rw [h0]; simp
    · ring
  simp only [hv]

/-- The formula in the docstring of `dirichlet_energy` (values divided by the degree itself) does not hold. -/
theorem C14_documented_normalized_energy_violated :
    ∃ (W : Sp 2 2 ℝ) (L : Matrix (Fin 2) (Fin 2) ℝ) (x : Fin 2 → ℝ), NonnegW W.dense ∧
      laplacian W .normalized = .ok L ∧ dirichletEnergy L x ≠
      1 / 2 * ∑ i, ∑ j, W.dense i j * (x j / wdeg W.dense j - x i / wdeg W.dense i) ^ 2 := by
  have hn : NonnegW (Sp.ofDense !![(0 : ℝ), 4; 4, 0]).dense := by
    rw [Sp.dense_ofDense]; intro i j; fin_cases i <;> fin_cases j <;> simp
  obtain ⟨L, h1, h2⟩ := C14_normalized_energy _ hn
  refine ⟨_, L, ![1, 0], hn, h1, ?_⟩
  rw [h2, Sp.dense_ofDense]
  have hs : Real.sqrt 4 = 2 := by
    rw [show (4 : ℝ) = 2 ^ 2 by norm_num]; exact Real.sqrt_sq (by norm_num)
  have hw : ∀ i, wdeg !![(0 : ℝ), 4; 4, 0] i = 4 := by
    intro i; fin_cases i <;> simp [wdeg, Fin.sum_univ_two]
  simp only [hw, hs]
  simp [Fin.sum_univ_two]
  norm_num

/-! ## C15 -/

/-- `estimate_lmax(method='bounds')`: the returned number is finite and at least every eigenvalue of `L`, for
both Laplacian types, isolated vertices included. -/
theorem C15_upper_bound (g : Graph n ℝ) (hg : g.Built) (hW : NonnegW g.W.dense) (hn : 0 < n) :
    ∃ (B : ℝ) (L : Matrix (Fin n) (Fin n) ℝ), g.upperBound = .ok (.fin B) ∧ laplacian g.W g.lapType = .ok L ∧
      ∀ l, IsEigenvalue L l → l ≤ B := by
  rcases hg.lapType_known with hlt | hlt
  · obtain ⟨B, h1, h2⟩ := upperBound_comb g hg hlt hW hn
    exact ⟨B, _, h1, by rw [hlt]; exact laplacian_comb _, h2⟩
  · obtain ⟨L, h1, -, -, -, -, h2⟩ := C12_normalized g.W hW
    refine ⟨2, L, ?_, by rw [hlt]; exact h1, fun l hl => (h2 l hl).2⟩
    unfold Graph.upperBound; rw [hlt]

/-- an unknown type raises ValueError -/
theorem C15_unknown_type (g : Graph n ℝ) (s : String) (h : g.lapType = .other s) :
    g.upperBound = .error .valueError := by
  unfold Graph.upperBound; rw [h]

/-- the bound is attained: one edge plus an isolated vertex -/
example : ∃ g : Graph 3 ℝ, g.Built ∧ NonnegW g.W.dense ∧ (∃ i, wdeg g.W.dense i = 0) ∧
    ∃ L, laplacian g.W g.lapType = .ok L ∧ IsEigenvalue L 2 := by
  obtain ⟨g, hg, hd, hl⟩ := Graph.exists_built (K := ℝ) !![0, 1, 0; 1, 0, 0; 0, 0, 0]
  refine ⟨g, hg, ?_, ⟨2, ?_⟩, _, by rw [hl]; exact laplacian_comb _, ![1, -1, 0], ?_, ?_⟩
  · rw [hd]; intro i j; fin_cases i <;> fin_cases j <;> simp
  · rw [hd]; simp [wdeg, Fin.sum_univ_three]
  · intro h; have := congrFun h 0; simp at this
  · rw [hd]
    ext i
    fin_cases i <;> simp [Matrix.mulVec, dotProduct, Fin.sum_univ_three, combLap, wdeg, wsym] <;> norm_num

/-! ## C22 -/

/-- The Laplacian (either type) only depends on the symmetrized weights. -/
theorem C22_orientation_invisible (W W' : Sp n n ℝ) (lt : LapType)
    (h : ∀ i j, W.dense i j + W.dense j i = W'.dense i j + W'.dense j i) :
    laplacian W lt = laplacian W' lt := by
  have h1 : lapWeights W = lapWeights W' := by
    ext i j; rw [lapWeights_apply, lapWeights_apply]; unfold wsym; rw [h]
  have h2 : dw W = dw W' := by
    funext i
    rw [dw_eq, dw_eq, ← sum_wsym, ← sum_wsym]
    exact Finset.sum_congr rfl fun j _ => by unfold wsym; rw [h]
  have h3 : invSqrtDegree W = invSqrtDegree W' := by
    funext i; unfold invSqrtDegree; rw [h2]
  cases lt
  · unfold laplacian; rw [h1, h2]
  · unfold laplacian; rw [h1, h2, h3]
  · rfl

/-- In particular `W`, `Wᵀ` and `(W + Wᵀ)/2` have the same Laplacian. -/
theorem C22_transpose_and_average (W T A : Sp n n ℝ) (lt : LapType) (hT : ∀ i j, T.dense i j = W.dense j i)
    (hA : ∀ i j, A.dense i j = (W.dense i j + W.dense j i) / 2) :
    laplacian T lt = laplacian W lt ∧ laplacian A lt = laplacian W lt := by
  constructor <;> apply C22_orientation_invisible <;> intro i j
  · rw [hT, hT]; ring
  · rw [hA, hA]; ring

example : ∃ W : Sp 2 2 ℝ, W.dense ≠ W.transpose.dense ∧
    laplacian W .normalized = laplacian W.transpose .normalized := by
  refine ⟨Sp.ofDense !![0, 1; 0, 0], ?_, ?_⟩
  · intro h
    have := congrFun (congrFun h 0) 1
    rw [Sp.dense_transpose, Sp.dense_ofDense] at this; simp at this
  · apply C22_orientation_invisible
    intro i j
    rw [Sp.dense_transpose, Sp.dense_transpose, add_comm]

/-! ## C23 -/

/-- `W'` is `W` with vertex `i` renamed `σ i`. -/
def Spec.Relabel (σ : Equiv.Perm (Fin n)) (M M' : Matrix (Fin n) (Fin n) ℝ) : Prop :=
  ∀ i j, M' (σ i) (σ j) = M i j

theorem relabel_sum {σ : Equiv.Perm (Fin n)} (f : Fin n → ℝ) : ∑ j, f (σ j) = ∑ j, f j := Equiv.sum_comp σ f

/-- Relabelling permutes the degrees and the Laplacian, and keeps the Dirichlet energy. -/
theorem C23_laplacian (σ : Equiv.Perm (Fin n)) (W W' : Sp n n ℝ) (h : Relabel σ W.dense W'.dense) (lt : LapType)
    (L : Matrix (Fin n) (Fin n) ℝ) (hL : laplacian W lt = .ok L) :
    (∀ i, dw W' (σ i) = dw W i) ∧
    ∃ L', laplacian W' lt = .ok L' ∧ (∀ i j, L' (σ i) (σ j) = L i j) ∧
      ∀ x, dirichletEnergy L' (fun i => x (σ.symm i)) = dirichletEnergy L x := by
  have hd : ∀ i, dw W' (σ i) = dw W i := by
    intro i
    rw [dw_eq, dw_eq]
    unfold wdeg
    rw [← relabel_sum (σ := σ) fun j => W'.dense j (σ i), ← relabel_sum (σ := σ) fun j => W'.dense (σ i) j]
    simp only [h _ _]
  have hw : ∀ i j, lapWeights W' (σ i) (σ j) = lapWeights W i j := by
    intro i j
    rw [lapWeights_apply, lapWeights_apply]
    unfold wsym
    rw [h, h]
  have hs : ∀ i, invSqrtDegree W' (σ i) = invSqrtDegree W i := by
    intro i; unfold invSqrtDegree; rw [hd]
  refine ⟨hd, ?_⟩
  have key : ∃ L', laplacian W' lt = .ok L' ∧ (∀ i j, L' (σ i) (σ j) = L i j) := by
    cases lt
    · simp only [laplacian, Except.ok.injEq] at hL
      refine ⟨_, rfl, fun i j => ?_⟩
      rw [← hL]
      simp only [Matrix.sub_apply, Matrix.diagonal_apply, hw, hd, σ.injective.eq_iff]
    · simp only [laplacian, Except.ok.injEq] at hL
      refine ⟨_, rfl, fun i j => ?_⟩
      rw [← hL]
      simp only [Matrix.of_apply, Matrix.sub_apply, Matrix.one_apply, Matrix.mul_diagonal, Matrix.diagonal_mul, hs, hw,
        hd, σ.injective.eq_iff]
    · simp [laplacian] at hL
  obtain ⟨L', h1, h2⟩ := key
  refine ⟨L', h1, h2, fun x => ?_⟩
  simp only [dirichletEnergy, dotProduct, Matrix.mulVec]
  rw [← relabel_sum (σ := σ)]
  refine Finset.sum_congr rfl fun i _ => ?_
  rw [← relabel_sum (σ := σ)]
  simp only [h2, Equiv.symm_apply_apply]

/-- Relabelling keeps directedness, the number of edges, the unweighted degrees and connectedness. -/
theorem C23_structure (σ : Equiv.Perm (Fin n)) (g g' : Graph n ℝ) (hg : g.Built) (hg' : g'.Built)
    (h : Relabel σ g.W.dense g'.W.dense) (pop : Pop n) :
    isDirected g'.W = isDirected g.W ∧ g'.nEdges = g.nEdges ∧ (∀ i, degree g'.W (σ i) = degree g.W i) ∧
    isConnected pop g'.W = isConnected pop g.W := by
  have hu : Undirected g'.W.dense ↔ Undirected g.W.dense := by
    constructor
    · intro hu i j; rw [← h, ← h]; exact hu _ _
    · intro hu i j
      have := hu (σ.symm i) (σ.symm j)
      rw [← h, ← h] at this
      simpa using this
  refine ⟨?_, ?_, ?_, ?_⟩
  · rw [Bool.eq_iff_iff, C03_is_directed_iff, C03_is_directed_iff, hu]
  · by_cases hu' : Undirected g.W.dense
    · rw [C02_n_edges_undirected g' hg' (hu.2 hu'), C02_n_edges_undirected g hg hu']
      symm
      apply Finset.card_bij (fun e _ => e.map σ)
      · intro e he
        simp only [edges, arcs, Finset.mem_image, Finset.mem_filter, Finset.mem_univ, true_and] at he ⊢
        obtain ⟨p, hp, rfl⟩ := he
        exact ⟨(σ p.1, σ p.2), by rw [h]; exact hp, rfl⟩
      · intro a _ b _ hab
        exact Sym2.map.injective σ.injective hab
      · intro e he
        simp only [edges, arcs, Finset.mem_image, Finset.mem_filter, Finset.mem_univ, true_and] at he
        obtain ⟨p, hp, rfl⟩ := he
        refine ⟨s(σ.symm p.1, σ.symm p.2), ?_, by simp⟩
        simp only [edges, arcs, Finset.mem_image, Finset.mem_filter, Finset.mem_univ, true_and]
        refine ⟨(σ.symm p.1, σ.symm p.2), ?_, rfl⟩
        rw [← h]; simpa using hp
    · rw [C02_n_edges_directed g' hg' (fun h => hu' (hu.1 h)), C02_n_edges_directed g hg hu']
      symm
      apply Finset.card_bij (fun p _ => (σ p.1, σ p.2))
      · intro p hp
        simp only [arcs, Finset.mem_filter, Finset.mem_univ, true_and] at hp ⊢
        rw [h]; exact hp
      · intro a _ b _ hab
        simp only [Prod.mk.injEq, σ.injective.eq_iff] at hab
        exact Prod.ext hab.1 hab.2
      · intro p hp
        simp only [arcs, Finset.mem_filter, Finset.mem_univ, true_and] at hp
        refine ⟨(σ.symm p.1, σ.symm p.2), ?_, by simp⟩
        simp only [arcs, Finset.mem_filter, Finset.mem_univ, true_and]
        rw [← h]; simpa using hp
  · intro i
    rw [C07_degree g' hg', C07_degree g hg]
    have e1 : (Finset.univ.filter fun j => g'.W.dense j (σ i) ≠ 0).card = (Finset.univ.filter fun j => g.W.dense j i ≠ 0).card := by
      symm
      apply Finset.card_bij (fun j _ => σ j)
      · intro j hj; simp only [Finset.mem_filter, Finset.mem_univ, true_and] at hj ⊢; rw [h]; exact hj
      · intro a _ b _ hab; exact σ.injective hab
      · intro j hj
        simp only [Finset.mem_filter, Finset.mem_univ, true_and] at hj
        refine ⟨σ.symm j, ?_, by simp⟩
        simp only [Finset.mem_filter, Finset.mem_univ, true_and]
        rw [← h]; simpa using hj
    have e2 : (Finset.univ.filter fun j => g'.W.dense (σ i) j ≠ 0).card = (Finset.univ.filter fun j => g.W.dense i j ≠ 0).card := by
      symm
      apply Finset.card_bij (fun j _ => σ j)
      · intro j hj; simp only [Finset.mem_filter, Finset.mem_univ, true_and] at hj ⊢; rw [h]; exact hj
      · intro a _ b _ hab; exact σ.injective hab
      · intro j hj
        simp only [Finset.mem_filter, Finset.mem_univ, true_and] at hj
        refine ⟨σ.symm j, ?_, by simp⟩
        simp only [Finset.mem_filter, Finset.mem_univ, true_and]
        rw [← h]; simpa using hj
    rw [e1, e2]
  · rcases Nat.eq_zero_or_pos n with rfl | hn
    · rw [C05_empty_graph, C05_empty_graph]
    · obtain ⟨b, hb1, hb2⟩ := C05_is_connected_iff g hg hn pop
      obtain ⟨b', hb1', hb2'⟩ := C05_is_connected_iff g' hg' hn pop
      rw [hb1, hb1']
      congr 1
      rw [Bool.eq_iff_iff, hb2, hb2']
      have hr : ∀ {i j}, Reach g.W.dense i j → Reach g'.W.dense (σ i) (σ j) := by
        intro i j hij
        refine Relation.ReflTransGen.lift σ (fun a b hab => ?_) _ _ hij
        show g'.W.dense (σ a) (σ b) ≠ 0
        rw [h]; exact hab
      have hr' : ∀ {i j}, Reach g'.W.dense i j → Reach g.W.dense (σ.symm i) (σ.symm j) := by
        intro i j hij
        refine Relation.ReflTransGen.lift σ.symm (fun a b hab => ?_) _ _ hij
        show g.W.dense (σ.symm a) (σ.symm b) ≠ 0
        rw [← h]; simpa [Arc] using hab
      constructor
      · intro hs i j; have := hr' (hs (σ i) (σ j)); simpa using this
      · intro hs i j; have := hr (hs (σ.symm i) (σ.symm j)); simpa using this

/-- for every permutation and matrix there is a relabelled graph -/
example (σ : Equiv.Perm (Fin n)) (M : Matrix (Fin n) (Fin n) ℝ) : ∃ g g' : Graph n ℝ, g.Built ∧ g'.Built ∧
    g.W.dense = M ∧ Relabel σ g.W.dense g'.W.dense := by
  obtain ⟨g, h1, h2, -⟩ := Graph.exists_built (K := ℝ) M
  obtain ⟨g', h1', h2', -⟩ := Graph.exists_built (K := ℝ) (Matrix.of fun i j => M (σ.symm i) (σ.symm j))
  exact ⟨g, g', h1, h1', h2, fun i j => by rw [h2, h2']; simp⟩

/-! ## C53 -/

section symmetrize

variable {K : Type} [Field K] [LinearOrder K] [IsStrictOrderedRing K]

/-- Non-square input raises ValueError for every method; an unknown method raises ValueError. -/
theorem C53_errors {n m : ℕ} (b : Bool) (W : Matrix (Fin n) (Fin m) K) (meth : SymMethod) :
    ((n ≠ m ∨ ∃ s, meth = .other s) ↔ symmetrize b W meth = .error .valueError) := by
  unfold symmetrize
  by_cases h : n = m
  · subst h
    cases meth <;> simp
  · simp [h]

theorem symMaximum_apply (b : Bool) (W : Matrix (Fin n) (Fin n) K) (i j : Fin n) :
    symMaximum b W i j = max (W i j) (W j i) := by
  unfold symMaximum
  split
  · simp only [Matrix.of_apply, gt_iff_lt]
    split
    · rename_i h; rw [max_eq_right h.le]; ring
    · rename_i h; rw [max_eq_left (not_lt.1 h)]; ring
  · rfl

/-- Every method returns a symmetric matrix, sparse or dense. -/
theorem C53_symmetric (b : Bool) (W S : Matrix (Fin n) (Fin n) K) (meth : SymMethod)
    (h : symmetrize b W meth = .ok S) : ∀ i j, S i j = S j i := by
  unfold symmetrize at h
  rw [dif_pos rfl] at h
  intro i j
  cases meth <;> simp only [Except.ok.injEq, reduceCtorEq] at h <;> subst h
  · simp only [symAverage, Matrix.of_apply, add_comm]
  · rw [symMaximum_apply, symMaximum_apply, max_comm]
  · simp only [symFill, symAverage, Matrix.of_apply, add_comm]
  · rw [symMaximum_apply, symMaximum_apply, max_comm]
  · rw [symMaximum_apply, symMaximum_apply, max_comm]

/-- What each method computes: the mean; the maximum; the existing weight where only one direction exists
(`fill`, non-negative weights); one triangle mirrored (`tril`, `triu`, non-negative weights).  The result is the
same for the sparse and the dense code path. -/
theorem C53_values (b : Bool) (W : Matrix (Fin n) (Fin n) K) :
    (∃ S, symmetrize b W .average = .ok S ∧ ∀ i j, S i j = (W i j + W j i) / 2) ∧
    (∃ S, symmetrize b W .maximum = .ok S ∧ ∀ i j, S i j = max (W i j) (W j i)) ∧
    (NonnegW W → ∃ S, symmetrize b W .fill = .ok S ∧ ∀ i j,
      S i j = if W i j = 0 then W j i else if W j i = 0 then W i j else (W i j + W j i) / 2) ∧
    (NonnegW W → ∃ S, symmetrize b W .tril = .ok S ∧ ∀ i j, S i j = if j ≤ i then W i j else W j i) ∧
    (NonnegW W → ∃ S, symmetrize b W .triu = .ok S ∧ ∀ i j, S i j = if i ≤ j then W i j else W j i) := by
  unfold symmetrize
  simp only [dif_pos]
  refine ⟨⟨_, rfl, fun i j => rfl⟩, ⟨_, rfl, fun i j => symMaximum_apply _ _ _ _⟩, ?_, ?_, ?_⟩
  · intro hW
    refine ⟨_, rfl, fun i j => ?_⟩
    have hp : ∀ i j, (0 < W i j) ↔ W i j ≠ 0 := fun i j =>
      ⟨fun h => ne_of_gt h, fun h => lt_of_le_of_ne (hW i j) (Ne.symm h)⟩
    simp only [symFill, symAverage, Matrix.of_apply, gt_iff_lt, hp]
    by_cases h1 : W i j = 0 <;> by_cases h2 : W j i = 0 <;> cases b <;> simp [h1, h2]
  · intro hW
    refine ⟨_, rfl, fun i j => ?_⟩
    rw [symMaximum_apply]
    simp only [keepTril, Matrix.of_apply]
    rcases lt_trichotomy i j with h | h | h
    · rw [if_neg (not_le.2 h), if_pos h.le, if_neg (not_le.2 h), max_eq_right (hW j i)]
    · subst h; simp
    · rw [if_pos h.le, if_neg (not_le.2 h), if_pos h.le, max_eq_left (hW i j)]
  · intro hW
    refine ⟨_, rfl, fun i j => ?_⟩
    rw [symMaximum_apply]
    simp only [keepTriu, Matrix.of_apply]
    rcases lt_trichotomy i j with h | h | h
    · rw [if_pos h.le, if_neg (not_le.2 h), if_pos h.le, max_eq_left (hW i j)]
    · subst h; simp
    · rw [if_neg (not_le.2 h), if_pos h.le, if_neg (not_le.2 h), max_eq_right (hW j i)]

/-- Symmetric non-negative matrices are returned unchanged by every method (for `average` and `maximum` the sign
does not matter). -/
theorem C53_identity_on_symmetric (b : Bool) (W S : Matrix (Fin n) (Fin n) K) (meth : SymMethod)
    (hW : Undirected W) (hpos : meth = .average ∨ meth = .maximum ∨ NonnegW W)
    (h : symmetrize b W meth = .ok S) : S = W := by
  obtain ⟨⟨S1, h1, h1'⟩, ⟨S2, h2, h2'⟩, h3, h4, h5⟩ := C53_values b W
  have hval : ∀ i j, W j i = W i j := fun i j => hW j i
  cases meth
  · rw [h1] at h; cases h; ext i j; rw [h1', hval]; ring
  · rw [h2] at h; cases h; ext i j; rw [h2', hval, max_self]
  · simp only [reduceCtorEq, false_or] at hpos
    obtain ⟨S3, h3, h3'⟩ := h3 hpos
    rw [h3] at h; cases h; ext i j; rw [h3', hval]
    split
    · rename_i h0; rw [h0]
    · ring
  · simp only [reduceCtorEq, false_or] at hpos
    obtain ⟨S3, h3, h3'⟩ := h4 hpos
    rw [h3] at h; cases h; ext i j; rw [h3', hval, ite_self]
  · simp only [reduceCtorEq, false_or] at hpos
    obtain ⟨S3, h3, h3'⟩ := h5 hpos
    rw [h3] at h; cases h; ext i j; rw [h3', hval, ite_self]
  · rename_i s
    have := (C53_errors b W (.other s)).1 (.inr ⟨s, rfl⟩)
    rw [this] at h; simp at h

/-- With negative weights `tril` does not mirror the triangle: the weight is replaced by 0. -/
theorem C53_tril_negative_violated :
    ∃ W S : Matrix (Fin 2) (Fin 2) ℚ, Undirected W ∧ symmetrize true W .tril = .ok S ∧ S ≠ W := by
  refine ⟨!![0, -1; -1, 0], _, ?_, by unfold symmetrize; rw [dif_pos rfl], ?_⟩
  · intro i j; fin_cases i <;> fin_cases j <;> simp
  · intro h
    have := congrFun (congrFun h 0) 1
    rw [symMaximum_apply] at this
    simp [keepTril] at this

example : ∃ S : Matrix (Fin 2) (Fin 2) ℚ, symmetrize true !![0, 3; 1, 0] .maximum = .ok S ∧ S 1 0 = 3 := by
  obtain ⟨-, ⟨S, h1, h2⟩, -⟩ := C53_values true (!![0, 3; 1, 0] : Matrix (Fin 2) (Fin 2) ℚ)
  refine ⟨S, h1, ?_⟩
  rw [h2]; norm_num

end symmetrize

end PyGSP
