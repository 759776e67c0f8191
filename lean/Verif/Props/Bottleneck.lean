import Verif.Lemmas.Cheeger
import Verif.Props.ResistanceId
import Verif.Props.LmaxBounds

/-!
# C115: the frequencies and the bottlenecks of a graph

`s` is a graph object on which `compute_fourier_basis()` has been called: `s.basis = some ⟨n, e, U⟩`.  `cut g.W.dense A` is the weight between a set of
vertices and the others.
-/

namespace PyGSP

open Matrix Spec GState Real Cheeger

variable {n : ℕ} {S : Solvers n} {g : Graph n ℝ} {s : GState n} {e : Fin n → ℝ} {U : Matrix (Fin n) (Fin n) ℝ}

/-- The smallest energy of a signal orthogonal to a signal of energy zero, and the largest energy. -/
theorem gap_quad (h : Ready S g s) (hb : s.basis = some ⟨n, e, U⟩) (hn : 2 ≤ n) (z : Fin n → ℝ) (hz : s.L *ᵥ z = 0) (hz0 : z ≠ 0) (x : Fin n → ℝ)
    (hx : ∑ v, z v * x v = 0) :
    e ⟨1, hn⟩ * ∑ v, x v ^ 2 ≤ x ⬝ᵥ (s.L *ᵥ x) ∧ x ⬝ᵥ (s.L *ᵥ x) ≤ e ⟨n - 1, by omega⟩ * ∑ v, x v ^ 2 := by
  obtain ⟨hE, hm⟩ := h.pairs hb
  have hpos : ∀ k, 0 ≤ e k := fun k => h.eig_nonneg (hE.isEigenvalue k)
  set y := Uᵀ *ᵥ x with hy
  have hxy : U *ᵥ y = x := IsEigenPairs.coord hE x
  have q := Weyl.quad_basis hE y
  have m := Weyl.norm_basis hE y
  rw [hxy] at q m
  rw [dot_sum_sq] at m
  rw [q, m, Finset.mul_sum, Finset.mul_sum]
  refine ⟨?_, Finset.sum_le_sum fun k _ => mul_le_mul_of_nonneg_right (hm (Fin.mk_le_mk.2 (by omega))) (sq_nonneg _)⟩
  by_cases h0 : e ⟨1, hn⟩ = 0
  · rw [h0]
    simp only [zero_mul]
    exact Finset.sum_le_sum fun k _ => mul_nonneg (hpos k) (sq_nonneg _)
  have h1 : 0 < e ⟨1, hn⟩ := lt_of_le_of_ne (hpos _) (Ne.symm h0)
  -- the transform of `z`
  have hzk : ∀ k : Fin n, 1 ≤ k.1 → (Uᵀ *ᵥ z) k = 0 := fun k hk => by
    have hsym : Uᵀ * s.L = Matrix.diagonal e * Uᵀ := by
      have h1 : U * Uᵀ = 1 := mul_eq_one_comm.1 hE.orthonormal
      have : Uᵀ * (s.L * U) * Uᵀ = Uᵀ * (U * Matrix.diagonal e) * Uᵀ := by rw [hE.eig]
      rw [← Matrix.mul_assoc Uᵀ U, hE.orthonormal, Matrix.one_mul, Matrix.mul_assoc, Matrix.mul_assoc s.L, h1, Matrix.mul_one] at this
      exact this
    have h2 : Uᵀ *ᵥ (s.L *ᵥ z) = Matrix.diagonal e *ᵥ (Uᵀ *ᵥ z) := by rw [Matrix.mulVec_mulVec, hsym, ← Matrix.mulVec_mulVec]
    rw [hz, Matrix.mulVec_zero] at h2
    have h3 := congrFun h2 k
    rw [Matrix.mulVec_diagonal] at h3
    exact (mul_eq_zero.1 h3.symm).resolve_left (ne_of_gt (h1.trans_le (hm (Fin.mk_le_mk.2 hk))))
  have hz0' : (Uᵀ *ᵥ z) ⟨0, by omega⟩ ≠ 0 := fun hc => hz0 <| by
    rw [← IsEigenPairs.coord hE z, show Uᵀ *ᵥ z = 0 from funext fun k => by
      rcases Nat.eq_zero_or_pos k.1 with hk | hk
      · rw [show k = ⟨0, by omega⟩ from Fin.ext hk]; exact hc
      · exact hzk k hk, Matrix.mulVec_zero]
  have hdot : ∑ k, (Uᵀ *ᵥ z) k * y k = 0 := by
    have : (Uᵀ *ᵥ z) ⬝ᵥ y = z ⬝ᵥ (U *ᵥ y) := by
      rw [Matrix.dotProduct_mulVec z U y, ← Matrix.mulVec_transpose]
    rw [hxy] at this
    exact this.trans hx
  have hy0 : y ⟨0, by omega⟩ = 0 := by
    rw [Finset.sum_eq_single (⟨0, by omega⟩ : Fin n) (fun k _ hk => by
      rw [hzk k (Nat.pos_of_ne_zero fun hh => hk (Fin.ext hh)), zero_mul]) (by simp)] at hdot
    exact (mul_eq_zero.1 hdot).resolve_left hz0'
  refine Finset.sum_le_sum fun k _ => ?_
  rcases Nat.eq_zero_or_pos k.1 with hk | hk
  · rw [show k = ⟨0, by omega⟩ from Fin.ext hk, hy0]; simp
  · exact mul_le_mul_of_nonneg_right (hm (Fin.mk_le_mk.2 hk)) (sq_nonneg _)

theorem dirichlet_sub_const (M : Matrix (Fin n) (Fin n) ℝ) (x : Fin n → ℝ) (c : ℝ) : dirichlet M (fun v => x v - c) = dirichlet M x := by
  unfold dirichlet
  simp

/-- **C115** The energy of a signal lies between `e[1]` and `e[N - 1]` times its variance (the sum of the squared differences to the mean). -/
theorem C115_poincare (h : Ready S g s) (hl : s.lapType = .combinatorial) (hb : s.basis = some ⟨n, e, U⟩) (hn : 2 ≤ n) (x : Fin n → ℝ) :
    ∃ E, dirichletEnergyPy s.L ⟨n, x⟩ = .ok E ∧ e ⟨1, hn⟩ * ∑ v, (x v - (∑ u, x u) / n) ^ 2 ≤ E ∧
      E ≤ e ⟨n - 1, by omega⟩ * ∑ v, (x v - (∑ u, x u) / n) ^ 2 := by
  have hn0 : (n : ℝ) ≠ 0 := by positivity
  refine ⟨dirichlet g.W.dense x, ?_, ?_⟩
  · unfold dirichletEnergyPy checkSignal
    simp only [dite_true]
    refine congrArg Except.ok ?_
    unfold dirichletEnergy
    rw [h.comb hl]
    exact combLap_quad _ _
  · have := gap_quad h hb hn (fun _ => 1) (by rw [h.comb hl]; exact combLap_const _ _) (fun hc => by simpa using congrFun hc ⟨0, by omega⟩)
      (fun v => x v - (∑ u, x u) / n) (by simp [Finset.sum_sub_distrib]; field_simp; ring)
    rw [h.comb hl, combLap_quad, dirichlet_sub_const] at this
    exact this

theorem sum_ind (A : Finset (Fin n)) : ∑ v, ind A v = A.card := by simp [ind]

theorem ind_var (hn : 0 < n) (A : Finset (Fin n)) : ∑ v, (ind A v - (∑ u, ind A u) / n) ^ 2 = A.card * Aᶜ.card / n := by
  have hn0 : (n : ℝ) ≠ 0 := by positivity
  have hcard : (Aᶜ.card : ℝ) = n - A.card := by
    rw [Finset.card_compl, Fintype.card_fin, Nat.cast_sub (by simpa using Finset.card_le_univ A)]
  have hsq : ∀ v, (ind A v - (A.card : ℝ) / n) ^ 2 = ind A v * (1 - 2 * ((A.card : ℝ) / n)) + ((A.card : ℝ) / n) ^ 2 := fun v => by
    unfold ind
    split <;> ring
  rw [sum_ind, Finset.sum_congr rfl fun v _ => hsq v, Finset.sum_add_distrib, ← Finset.sum_mul, sum_ind, hcard]
  simp
  field_simp
  ring

/-- **C115** Every cut is bounded by the frequencies: `e[1] |A| |Aᶜ| ≤ N cut(A) ≤ e[N - 1] |A| |Aᶜ|`. -/
theorem C115_cut (h : Ready S g s) (hl : s.lapType = .combinatorial) (hb : s.basis = some ⟨n, e, U⟩) (hn : 2 ≤ n) (A : Finset (Fin n)) :
    e ⟨1, hn⟩ * (A.card * Aᶜ.card) ≤ n * cut g.W.dense A ∧ n * cut g.W.dense A ≤ e ⟨n - 1, by omega⟩ * (A.card * Aᶜ.card) := by
  have hn0 : (0 : ℝ) < n := by positivity
  obtain ⟨E, hE, h1, h2⟩ := C115_poincare h hl hb hn (ind A)
  have hE' : E = cut g.W.dense A := by
    rw [← dirichlet_ind, ← combLap_quad, ← h.comb hl]
    unfold dirichletEnergyPy checkSignal at hE
    simp only [dite_true] at hE
    exact (Except.ok.inj hE).symm
  rw [ind_var (by omega), hE', ← mul_div_assoc, div_le_iff₀ hn0] at h1
  rw [ind_var (by omega), hE', ← mul_div_assoc, le_div_iff₀ hn0] at h2
  constructor <;> linarith

/-- **C115** The degrees (without self-loops) lie between `(N - 1) / N e[1]` and `(N - 1) / N e[N - 1]`. -/
theorem C115_degrees (h : Ready S g s) (hl : s.lapType = .combinatorial) (hb : s.basis = some ⟨n, e, U⟩) (hn : 2 ≤ n) (v : Fin n) :
    e ⟨1, hn⟩ * (n - 1) ≤ n * (wdeg g.W.dense v - g.W.dense v v) ∧ n * (wdeg g.W.dense v - g.W.dense v v) ≤ e ⟨n - 1, by omega⟩ * (n - 1) := by
  have hc : cut g.W.dense {v} = wdeg g.W.dense v - g.W.dense v v := by
    unfold cut
    rw [Finset.sum_singleton, ← sum_wsym]
    have := Finset.sum_compl_add_sum {v} fun j => wsym g.W.dense v j
    rw [Finset.sum_singleton] at this
    rw [← this]
    unfold wsym
    ring
  have := C115_cut h hl hb hn {v}
  rw [hc, Finset.card_compl, Fintype.card_fin, Finset.card_singleton, Nat.cast_sub (by omega), Nat.cast_one, one_mul] at this
  exact this

/-- **C115** The sum of the frequencies is the sum of the degrees without self-loops; with the normalized Laplacian, each vertex with edges counts
`1 - w_vv / d_v`. -/
theorem C115_trace (h : Ready S g s) (hb : s.basis = some ⟨n, e, U⟩) :
    (s.lapType = .combinatorial → ∑ k, e k = ∑ v, (wdeg g.W.dense v - g.W.dense v v)) ∧
    (s.lapType = .normalized → ∑ k, e k = ∑ v with wdeg g.W.dense v ≠ 0, (1 - g.W.dense v v / wdeg g.W.dense v)) := by
  obtain ⟨hE, -⟩ := h.pairs hb
  have htr : ∑ k, e k = ∑ v, s.L v v := by
    have h1 : U * Uᵀ = 1 := mul_eq_one_comm.1 hE.orthonormal
    have : s.L = U * Matrix.diagonal e * Uᵀ := by rw [← hE.eig, Matrix.mul_assoc, h1, Matrix.mul_one]
    have h2 : s.L.trace = (Matrix.diagonal e).trace := by
      rw [this, Matrix.trace_mul_comm, ← Matrix.mul_assoc, hE.orthonormal, Matrix.one_mul]
    rw [Matrix.trace_diagonal] at h2
    rw [← h2]
    rfl
  have hd : ∀ v, combLap g.W.dense v v = wdeg g.W.dense v - g.W.dense v v := fun v => by
    simp [combLap, wsym]
  constructor
  · intro hl
    rw [htr, h.comb hl]
    exact Finset.sum_congr rfl fun v _ => hd v
  · intro hl
    have hL := h.lap
    rw [hl, laplacian_norm _ h.nonneg] at hL
    rw [htr, ← Except.ok.inj hL, Finset.sum_filter]
    refine Finset.sum_congr rfl fun v _ => ?_
    rw [Matrix.of_apply, hd]
    split
    · rename_i h0
      have := nscale_sq_pos h.nonneg h0
      field_simp
      linear_combination (wdeg g.W.dense v - g.W.dense v v) * this
    · rename_i h0
      rw [not_not] at h0
      unfold nscale
      rw [if_pos h0]
      simp

/-- **C115** Cheeger, from the cuts to the frequency: with the normalized Laplacian `e[1] vol(A) vol(Aᶜ) ≤ vol(V) cut(A)`. -/
theorem C115_normalized_cut (h : Ready S g s) (hl : s.lapType = .normalized) (hb : s.basis = some ⟨n, e, U⟩) (hn : 2 ≤ n) (A : Finset (Fin n)) :
    e ⟨1, hn⟩ * ((∑ v ∈ A, wdeg g.W.dense v) * ∑ v ∈ Aᶜ, wdeg g.W.dense v) ≤ (∑ v, wdeg g.W.dense v) * cut g.W.dense A ∧
    (∑ v, wdeg g.W.dense v) * cut g.W.dense A ≤ e ⟨n - 1, by omega⟩ * ((∑ v ∈ A, wdeg g.W.dense v) * ∑ v ∈ Aᶜ, wdeg g.W.dense v) := by
  set d := wdeg g.W.dense with hd
  have hd0 : ∀ v, 0 ≤ d v := wdeg_nonneg h.nonneg
  have hL := h.lap
  rw [hl, laplacian_norm _ h.nonneg] at hL
  have hL' := Except.ok.inj hL
  set V := ∑ v, d v with hV
  set a := ∑ v ∈ A, d v with ha
  have hac : ∑ v ∈ Aᶜ, d v = V - a := by
    have := Finset.sum_add_sum_compl A d
    linarith
  rw [hac]
  have hV0 : 0 ≤ V := Finset.sum_nonneg fun v _ => hd0 v
  rcases hV0.eq_or_lt with h0 | hpos
  · have hz : ∀ v, d v = 0 := fun v => (Finset.sum_eq_zero_iff_of_nonneg fun v _ => hd0 v).1 (hV.symm.trans h0.symm) v (Finset.mem_univ _)
    have : a = 0 := Finset.sum_eq_zero fun v _ => hz v
    rw [this, ← h0]
    simp
  have hsc : ∀ v, nscale g.W.dense v * √(d v) = if d v = 0 then 0 else 1 := fun v => by
    unfold nscale
    rw [← hd]
    split
    · simp
    · rename_i h0
      rw [one_div, inv_mul_cancel₀]
      exact (Real.sqrt_pos.2 (lt_of_le_of_ne (hd0 v) (Ne.symm h0))).ne'
  -- isolated vertices do not contribute
  have hw0 : ∀ v u, d v = 0 → wsym g.W.dense v u = 0 := fun v u hv => by
    rw [hd, ← sum_wsym] at hv
    exact (Finset.sum_eq_zero_iff_of_nonneg fun u _ => wsym_nonneg' h.nonneg v u).1 hv u (Finset.mem_univ _)
  have henergy : ∀ y : Fin n → ℝ, (fun v => √(d v) * y v) ⬝ᵥ (s.L *ᵥ fun v => √(d v) * y v) = dirichlet g.W.dense y := fun y => by
    rw [← hL', scaled_quad, combLap_quad, dirichlet_wsym, dirichlet_wsym]
    refine congrArg _ (Finset.sum_congr rfl fun i _ => Finset.sum_congr rfl fun j _ => ?_)
    rw [← mul_assoc, ← mul_assoc, hsc, hsc]
    by_cases hi : d i = 0
    · rw [hw0 i j hi]; simp
    · by_cases hj : d j = 0
      · rw [wsym_comm, hw0 j i hj]; simp
      · simp [hi, hj]
  have hker : s.L *ᵥ (fun v => √(d v)) = 0 := by
    rw [← hL']
    funext i
    rw [scaled_mulVec, combLap_mulVec]
    rw [Finset.sum_eq_zero, mul_zero]
    · rfl
    · intro j _
      rw [hsc, hsc]
      by_cases hi : d i = 0
      · rw [hw0 i j hi]; simp
      · by_cases hj : d j = 0
        · rw [wsym_comm, hw0 j i hj]; simp
        · simp [hi, hj]
  have hz0 : (fun v => √(d v)) ≠ 0 := fun hc => by
    have : ∀ v, d v = 0 := fun v => by
      have := congrFun hc v
      exact (Real.sqrt_eq_zero (hd0 v)).1 this
    exact hpos.ne' (Finset.sum_eq_zero fun v _ => this v)
  have hsA : ∑ v, d v * ind A v = a := by simp [ind, ha, Finset.sum_ite_mem]
  have hx : ∑ v, √(d v) * (√(d v) * (ind A v - a / V)) = 0 := by
    have : ∀ v, √(d v) * (√(d v) * (ind A v - a / V)) = d v * ind A v - d v * (a / V) := fun v => by
      rw [← mul_assoc, Real.mul_self_sqrt (hd0 v)]; ring
    rw [Finset.sum_congr rfl fun v _ => this v, Finset.sum_sub_distrib, hsA, ← Finset.sum_mul, ← hV, mul_div_cancel₀ _ hpos.ne', sub_self]
  have := gap_quad h hb hn _ hker hz0 (fun v => √(d v) * (ind A v - a / V)) hx
  rw [henergy, dirichlet_sub_const, dirichlet_ind] at this
  have hnorm : ∑ v, (√(d v) * (ind A v - a / V)) ^ 2 = a * (V - a) / V := by
    have : ∀ v, (√(d v) * (ind A v - a / V)) ^ 2 = d v * ind A v * (1 - 2 * (a / V)) + d v * (a / V) ^ 2 := fun v => by
      rw [mul_pow, Real.sq_sqrt (hd0 v)]
      unfold ind
      split <;> ring
    rw [Finset.sum_congr rfl fun v _ => this v, Finset.sum_add_distrib, ← Finset.sum_mul, ← Finset.sum_mul, hsA, ← hV]
    have := hpos.ne'
    field_simp
    ring
  rw [hnorm, ← mul_div_assoc, div_le_iff₀ hpos, ← mul_div_assoc, le_div_iff₀ hpos] at this
  constructor <;> linarith [this.1, this.2]

theorem col_eig (hE : IsEigenPairs s.L e U) (k : Fin n) : s.L *ᵥ (fun i => U i k) = fun i => e k * U i k := by
  funext i
  have := congrFun (congrFun hE.eig i) k
  rw [Matrix.mul_apply, Matrix.mul_diagonal] at this
  rw [mul_comm, ← this]
  rfl

/-- **C115** Cheeger, from a frequency to a cut: the values of `U[:, k]` at one threshold separate at most half of the vertices, with a cut of at most
`sqrt(2 d e[k])` per vertex, where `d` bounds the degrees. -/
theorem C115_sweep (h : Ready S g s) (hl : s.lapType = .combinatorial) (hb : s.basis = some ⟨n, e, U⟩) {d : ℝ} (hd : ∀ v, wdeg g.W.dense v ≤ d) (k : Fin n)
    (hk : 0 < e k) :
    ∃ (A : Finset (Fin n)) (t : ℝ), 0 < t ∧ (A = (Finset.univ.filter fun v => t ≤ U v k) ∨ A = Finset.univ.filter fun v => U v k ≤ -t) ∧
      A.Nonempty ∧ 2 * A.card ≤ n ∧ cut g.W.dense A ≤ √(2 * d * e k) * A.card := by
  obtain ⟨hE, -⟩ := h.pairs hb
  have hd0 : 0 ≤ d := (wdeg_nonneg h.nonneg k).trans (hd k)
  have hex : ∃ i, (1 : ℝ) * U i k ≠ 0 := by
    by_contra hno
    push Not at hno
    have := col_norm hE k k
    rw [if_pos rfl, Finset.sum_eq_zero fun i _ => by have := hno i; rw [one_mul] at this; rw [this, mul_zero]] at this
    norm_num at this
  obtain ⟨A, t, ht, hA, h1, -, h3, h4⟩ := sweep_eigenvector h.nonneg (fun _ => (1 : ℝ)) (fun _ => zero_le_one) (c := d) (l := e k) (fun i => by rw [mul_one]; exact hd i)
    hd0 hk (fun i => U i k) (fun i => by rw [← h.comb hl, col_eig hE, one_mul]) hex
  refine ⟨A, t, ht, hA, h1, ?_, ?_⟩
  · simp at h3
    exact_mod_cast h3
  · simpa using h4

/-- **C115** The same with the normalized Laplacian: one threshold of `U[v, k] / sqrt(d_v)` separates at most half of the volume, with a conductance of at most
`sqrt(2 e[k])`. -/
theorem C115_normalized_sweep (h : Ready S g s) (hl : s.lapType = .normalized) (hb : s.basis = some ⟨n, e, U⟩) (k : Fin n) (hk : 0 < e k) :
    ∃ (A : Finset (Fin n)) (t : ℝ), 0 < t ∧ (A = (Finset.univ.filter fun v => t ≤ U v k / √(wdeg g.W.dense v)) ∨
        A = Finset.univ.filter fun v => U v k / √(wdeg g.W.dense v) ≤ -t) ∧
      A.Nonempty ∧ 0 < ∑ v ∈ A, wdeg g.W.dense v ∧ 2 * ∑ v ∈ A, wdeg g.W.dense v ≤ ∑ v, wdeg g.W.dense v ∧
      cut g.W.dense A ≤ √(2 * e k) * ∑ v ∈ A, wdeg g.W.dense v := by
  obtain ⟨hE, -⟩ := h.pairs hb
  have hL := h.lap
  rw [hl, laplacian_norm _ h.nonneg] at hL
  have hL' := Except.ok.inj hL
  set d := wdeg g.W.dense with hd
  have hd0 : ∀ v, 0 ≤ d v := wdeg_nonneg h.nonneg
  have hy : (fun v => U v k / √(d v)) = fun v => nscale g.W.dense v * U v k := by
    funext v
    unfold nscale
    rw [← hd]
    split
    · rename_i h0
      rw [h0]; simp
    · ring
  have heig : ∀ i, nscale g.W.dense i * (combLap g.W.dense *ᵥ fun v => U v k / √(d v)) i = e k * U i k := fun i => by
    have := congrFun (col_eig hE k) i
    rw [← hL', scaled_mulVec] at this
    rw [hy]
    exact this
  have hz : ∀ i, d i = 0 → U i k = 0 := fun i hi => by
    have := heig i
    unfold nscale at this
    rw [← hd, if_pos hi, zero_mul] at this
    exact (mul_eq_zero.1 this.symm).resolve_left hk.ne'
  have hx : ∀ i, (combLap g.W.dense *ᵥ fun v => U v k / √(d v)) i = e k * (d i * (U i k / √(d i))) := fun i => by
    by_cases hi : d i = 0
    · rw [combLap_mulVec, Finset.sum_eq_zero fun j _ => ?_, hi]
      · simp
      · have h2 := hi
        rw [hd, ← sum_wsym] at h2
        rw [(Finset.sum_eq_zero_iff_of_nonneg fun u _ => wsym_nonneg' h.nonneg i u).1 h2 j (Finset.mem_univ _), zero_mul]
    · have h1 := heig i
      unfold nscale at h1
      rw [← hd, if_neg hi] at h1
      have hs : 0 < √(d i) := Real.sqrt_pos.2 (lt_of_le_of_ne (hd0 i) (Ne.symm hi))
      have hss := Real.mul_self_sqrt (hd0 i)
      rw [one_div, inv_mul_eq_div, div_eq_iff hs.ne'] at h1
      rw [h1]
      field_simp
      rw [sq, hss]
  have hex : ∃ i, d i * (U i k / √(d i)) ≠ 0 := by
    by_contra hno
    push Not at hno
    have hU : ∀ i, U i k = 0 := fun i => by
      by_cases hi : d i = 0
      · exact hz i hi
      · have := (mul_eq_zero.1 (hno i)).resolve_left hi
        have hs : 0 < √(d i) := Real.sqrt_pos.2 (lt_of_le_of_ne (hd0 i) (Ne.symm hi))
        rw [div_eq_zero_iff] at this
        exact this.resolve_right hs.ne'
    have := col_norm hE k k
    rw [if_pos rfl, Finset.sum_eq_zero fun i _ => by rw [hU, mul_zero]] at this
    norm_num at this
  obtain ⟨A, t, ht, hA, h1, -, h3, h4⟩ := sweep_eigenvector h.nonneg d hd0 (c := 1) (l := e k) (fun i => by rw [one_mul]) zero_le_one hk _ hx hex
  rw [mul_one] at h4
  refine ⟨A, t, ht, hA, h1, ?_, h3, h4⟩
  obtain ⟨a, ha⟩ := h1
  refine Finset.sum_pos' (fun v _ => hd0 v) ⟨a, ha, lt_of_le_of_ne (hd0 a) fun h0 => ?_⟩
  have hU := hz a h0.symm
  rcases hA with rfl | rfl
  · have := (Finset.mem_filter.1 ha).2
    rw [hU, zero_div] at this
    linarith
  · have := (Finset.mem_filter.1 ha).2
    rw [hU, zero_div] at this
    linarith

/-- **C115** A connected graph whose edges weigh at least `w` and whose vertices are at most `D` hops apart has `e[1] ≥ 2 w / ((N - 1) D)`. -/
theorem C115_gap (h : Ready S g s) (hl : s.lapType = .combinatorial) (hb : s.basis = some ⟨n, e, U⟩) (hn : 2 ≤ n) {w : ℝ} (hw : 0 < w)
    (hmin : ∀ i j, g.W.dense i j ≠ 0 ∨ g.W.dense j i ≠ 0 → w ≤ (g.W.dense i j + g.W.dense j i) / 2) {D : ℕ} (hD : ∀ i j, WithinHops g.W.dense D i j) :
    2 * w ≤ e ⟨1, hn⟩ * ((n - 1) * D) := by
  have hc : Connected g.W.dense := fun i j => by
    have : ∀ D i, WithinHops g.W.dense D i j → Linked g.W.dense i j := by
      intro D
      induction D with
      | zero => rintro i rfl; exact .refl
      | succ D ih =>
        rintro i ⟨l, hil, hlj⟩
        rcases hil with rfl | hil
        · exact ih _ hlj
        · exact .head hil (ih _ hlj)
    exact this D i (hD i j)
  obtain ⟨pinv, hp⟩ := exists_pinv n
  obtain ⟨hist, hs⟩ := h.reached
  obtain ⟨R, hR, hres⟩ := C55_effective_resistance h.sound h.built hist hs hl h.nonneg hc hp
  obtain ⟨R', hR', hk⟩ := C114_kirchhoff h hl hb hp
  obtain ⟨R'', hR'', hpos, -⟩ := C114_bounds h hl hb hc hn hp
  obtain rfl := Except.ok.inj (hR.symm.trans hR')
  have hmet := C55_metric h.nonneg hc (fun i j => R i j) hres
  have hhop : ∀ D i j, WithinHops g.W.dense D i j → R i j ≤ D / w := by
    intro D
    induction D with
    | zero => rintro i j rfl; rw [(hmet i i i).1]; simp
    | succ D ih =>
      rintro i j ⟨l, hil, hlj⟩
      have h1 := ih _ _ hlj
      have h2 := (hmet i j l).2.2.2.1
      have h3 : R i l ≤ 1 / w := by
        by_cases hil' : i = l
        · subst hil'
          rw [(hmet i i i).1]
          positivity
        · have hm := hmin i l (hil.resolve_left hil')
          have hws : w ≤ wsym g.W.dense i l := hm
          exact ((hmet i l i).2.2.2.2 (ne_of_gt (hw.trans_le hws)) hil').trans (one_div_le_one_div_of_le hw hws)
      push_cast
      rw [add_div]
      linarith
  have hsum : ∑ i, ∑ j, R i j ≤ n * ((n - 1) * (D / w)) := by
    have hrow : ∀ i, ∑ j, R i j ≤ (n - 1) * (D / w) := fun i => by
      rw [← Finset.add_sum_erase _ _ (Finset.mem_univ i), (hmet i i i).1, zero_add]
      refine (Finset.sum_le_card_nsmul _ _ _ fun j _ => hhop D i j (hD i j)).trans (le_of_eq ?_)
      rw [Finset.card_erase_of_mem (Finset.mem_univ _), Finset.card_univ, Fintype.card_fin, nsmul_eq_mul, Nat.cast_sub (by omega), Nat.cast_one]
    refine (Finset.sum_le_card_nsmul _ _ _ fun i _ => hrow i).trans (le_of_eq ?_)
    rw [Finset.card_univ, Fintype.card_fin, nsmul_eq_mul]
  have hE := (h.pairs hb).1
  have hone : 1 / e ⟨1, hn⟩ ≤ ∑ k with e k ≠ 0, 1 / e k :=
    Finset.single_le_sum (f := fun k => 1 / e k) (fun k _ => one_div_nonneg.2 (h.eig_nonneg (hE.isEigenvalue k))) (Finset.mem_filter.2 ⟨Finset.mem_univ _, hpos.ne'⟩)
  have hn0 : (0 : ℝ) < n := by positivity
  have h5 : 2 * (1 / e ⟨1, hn⟩) ≤ (n - 1) * (D / w) := by
    have : n * (2 * (1 / e ⟨1, hn⟩)) ≤ n * ((n - 1) * (D / w)) := by
      refine le_trans ?_ hsum
      rw [hk]
      nlinarith
    exact le_of_mul_le_mul_left this hn0
  rw [mul_one_div, div_le_iff₀ hpos, ← mul_div_assoc, div_mul_eq_mul_div, le_div_iff₀ hw] at h5
  linarith

/-- The hypotheses of the theorems are met: a path with four vertices, both Laplacians. -/
example : ∃ (S : Solvers 4) (g g' : Graph 4 ℝ) (s s' : GState 4) (e e' : Fin 4 → ℝ) (U U' : Matrix (Fin 4) (Fin 4) ℝ),
    g.W.dense = path4 ∧ g'.W.dense = path4 ∧ Ready S g s ∧ s.lapType = .combinatorial ∧ s.basis = some ⟨4, e, U⟩ ∧ 0 < e 1 ∧
    Ready S g' s' ∧ s'.lapType = .normalized ∧ s'.basis = some ⟨4, e', U'⟩ ∧ 0 < e' 3 := by
  obtain ⟨S, g, s, hd, hr, hl, -⟩ := exists_ready path4 path4_nonneg (by norm_num)
  obtain ⟨e, U, -, h2, h3, -, h5, -⟩ := C113_computed hr
  obtain ⟨pinv, hp⟩ := exists_pinv 4
  have hl2 : (s.computeFourierBasis S none).2.lapType = .combinatorial := by rw [h5, hl]
  obtain ⟨-, -, hpos, -⟩ := C114_bounds h2 hl2 h3 (by rw [hd]; exact path4_connected) (by norm_num) hp
  obtain ⟨g', hg', hd', hlt⟩ := Graph.exists_built (K := ℝ) path4 .normalized
  have h0 := GState.ofGraph_inv (S := S) g' hg'
  have hl' : (GState.ofGraph g').lapType = .normalized := by rw [h0.2.2.1, hlt]
  have hr' : Ready S g' (GState.ofGraph g') := ⟨hr.sound, hg', by rw [hd']; exact path4_nonneg, by norm_num, ⟨[], rfl⟩, .inr hl', by
    rw [h0.2.2.2.2.2]; intro b hb; cases hb⟩
  obtain ⟨e', U', -, h2', h3', -, h5', -⟩ := C113_computed hr'
  refine ⟨S, g, g', _, _, e, e', U, U', hd, hd', h2, hl2, h3, hpos, h2', by rw [h5']; exact hl', h3', ?_⟩
  have htr := (C115_trace h2' h3').2 (by rw [h5']; exact hl')
  have hdeg : ∀ v, 0 < wdeg g'.W.dense v ∧ g'.W.dense v v = 0 := fun v => by
    rw [hd']
    fin_cases v <;> simp [wdeg, path4, Fin.sum_univ_four]
  rw [Finset.filter_true_of_mem fun v _ => (hdeg v).1.ne'] at htr
  simp only [(hdeg _).2, zero_div, sub_zero] at htr
  have hm := (h2'.pairs h3').2
  by_contra hcon
  push Not at hcon
  have : ∑ k, e' k ≤ 0 := Finset.sum_nonpos fun k _ => (hm (Fin.le_last k)).trans hcon
  rw [htr] at this
  norm_num at this

end PyGSP
