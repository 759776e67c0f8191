import Verif.Props.SpectraPath
import Verif.Props.Torus
import Verif.Props.Grid
import Mathlib.LinearAlgebra.Vandermonde
import Mathlib.LinearAlgebra.Matrix.Kronecker
import Mathlib.RingTheory.RootsOfUnity.Complex

/-!
# C88: the graph frequencies of `Ring` and `Torus`
-/

namespace PyGSP.Spectrum

open Matrix Spec GState Gen Classical

/-! ## The discrete Fourier modes -/

/-- the `m`-th `N`-th root of unity -/
noncomputable def root (N m : ℕ) : ℂ := Complex.exp (2 * Real.pi * Complex.I / N) ^ m

theorem cast_ite (p : Prop) [Decidable p] : ((if p then 1 else 0 : ℝ) : ℂ) = if p then 1 else 0 := by split <;> simp

theorem root_pow {N : ℕ} (hN : 0 < N) (m : ℕ) : root N m ^ N = 1 := by
  have := (Complex.isPrimitiveRoot_exp N (by omega)).pow_eq_one
  unfold root
  rw [pow_right_comm, this, one_pow]

theorem root_ne_zero (N m : ℕ) : root N m ≠ 0 := pow_ne_zero _ (Complex.exp_ne_zero _)

theorem root_pow_mod {N : ℕ} (hN : 0 < N) (m a : ℕ) : root N m ^ (a % N) = root N m ^ a := by
  conv_rhs => rw [← Nat.div_add_mod a N, pow_add, pow_mul, root_pow hN, one_pow, one_mul]

theorem root_inj {N m m' : ℕ} (hN : 0 < N) (h : m < N) (h' : m' < N) (e : root N m = root N m') : m = m' :=
  (Complex.isPrimitiveRoot_exp N (by omega)).pow_inj h h' e

theorem root_cos (N m d : ℕ) : root N m ^ d + (root N m ^ d)⁻¹ = ((2 * Real.cos (2 * Real.pi * d * m / N) : ℝ) : ℂ) := by
  have h : root N m ^ d = Complex.exp ((2 * Real.pi * d * m / N : ℝ) * Complex.I) := by
    unfold root
    rw [← pow_mul, ← Complex.exp_nat_mul]
    congr 1
    push_cast
    ring
  rw [h, ← Complex.exp_neg]
  push_cast
  rw [Complex.two_cos]
  push_cast
  ring_nf

/-- the matrix of the discrete Fourier modes -/
noncomputable def dft (N : ℕ) : Matrix (Fin N) (Fin N) ℂ := Matrix.of fun i m => root N m.1 ^ i.1

theorem dft_det {N : ℕ} (hN : 0 < N) : (dft N).det ≠ 0 := by
  have : dft N = (vandermonde fun m : Fin N => root N m.1)ᵀ := by
    ext i m; simp [dft, vandermonde_apply]
  rw [this, det_transpose, det_vandermonde_ne_zero_iff]
  exact fun m m' h => Fin.ext (root_inj hN m.2 m'.2 h)

/-- neighbours at distance `d` around the circle -/
theorem circ_sum {N : ℕ} (m : ℕ) (d : ℕ) (i : Fin N) :
    ∑ j : Fin N, ((if (i.1 + d) % N = j.1 then (1 : ℂ) else 0) + if (j.1 + d) % N = i.1 then 1 else 0) * (root N m ^ i.1 - root N m ^ j.1) =
      ((2 - 2 * Real.cos (2 * Real.pi * d * m / N) : ℝ) : ℂ) * root N m ^ i.1 := by
  have hN : 0 < N := Nat.lt_of_le_of_lt (Nat.zero_le _) i.2
  have h0 := root_ne_zero N m
  let j1 : Fin N := ⟨(i.1 + d) % N, Nat.mod_lt _ hN⟩
  let j2 : Fin N := ⟨(i.1 + (N - 1) * d) % N, Nat.mod_lt _ hN⟩
  have e1 : ∀ j : Fin N, (if (i.1 + d) % N = j.1 then (1 : ℂ) else 0) = if j1 = j then 1 else 0 := fun j => if_congr (by rw [Fin.ext_iff]) rfl rfl
  have e2 : ∀ j : Fin N, (if (j.1 + d) % N = i.1 then (1 : ℂ) else 0) = if j2 = j then 1 else 0 := by
    intro j
    refine if_congr ?_ rfl rfl
    have hd : (N - 1) * d + d = N * d := by
      obtain ⟨M, rfl⟩ : ∃ M, N = M + 1 := ⟨N - 1, by omega⟩
      simp; ring
    rw [Fin.ext_iff]
    change _ ↔ (i.1 + (N - 1) * d) % N = j.1
    constructor
    · intro h
      rw [← h, Nat.mod_add_mod, Nat.add_assoc, Nat.add_comm d, hd, Nat.add_mul_mod_self_left, Nat.mod_eq_of_lt j.2]
    · intro h
      rw [← h, Nat.mod_add_mod, Nat.add_assoc, hd, Nat.add_mul_mod_self_left, Nat.mod_eq_of_lt i.2]
  have e3 : root N m ^ j2.1 = root N m ^ i.1 * (root N m ^ d)⁻¹ := by
    have : root N m ^ ((N - 1) * d) * root N m ^ d = 1 := by
      rw [← pow_add]
      have hd : (N - 1) * d + d = N * d := by
        obtain ⟨M, rfl⟩ : ∃ M, N = M + 1 := ⟨N - 1, by omega⟩
        simp; ring
      rw [hd, pow_mul, root_pow hN, one_pow]
    change root N m ^ ((i.1 + (N - 1) * d) % N) = _
    rw [root_pow_mod hN, pow_add, eq_inv_of_mul_eq_one_left this]
  have e4 : root N m ^ j1.1 = root N m ^ i.1 * root N m ^ d := by
    change root N m ^ ((i.1 + d) % N) = _
    rw [root_pow_mod hN, pow_add]
  simp only [e1, e2, add_mul, ite_mul, one_mul, zero_mul, Finset.sum_add_distrib, Finset.sum_ite_eq, Finset.mem_univ, if_true]
  rw [e3, e4]
  have := root_cos N m d
  push_cast at this ⊢
  linear_combination (-(root N m ^ i.1)) * this

/-! ## Ring -/

/-- the number of steps of length at most `k` between two vertices of the ring -/
theorem ring_weight {N k : ℕ} (hN : 3 ≤ N) (hk : 2 * k < N) {lt : LapType} (hlt : lt = .combinatorial ∨ lt = .normalized) {g : Graph N ℝ}
    (hg : ring N k lt = .ok g) (i j : Fin N) : g.W.dense i j =
      ∑ d ∈ Finset.range k, ((if (i.1 + (d + 1)) % N = j.1 then (1 : ℝ) else 0) + if (j.1 + (d + 1)) % N = i.1 then 1 else 0) := by
  unfold ring at hg
  rw [if_neg (by omega), if_neg (by omega)] at hg
  obtain ⟨g', h1, h2, h3, h4⟩ := ofEdges_ok (ring_body_bound (k := k) hN) hlt
  rw [hg] at h1
  obtain rfl := Except.ok.inj h1
  rw [h3, if_neg (by omega), List.append_nil, ring_body_weight i.2 j.2, Nat.min_eq_left (by omega)]
  rfl

/-- **C88** `compute_fourier_basis()` on `Ring(N, k)` with `2 k < N` and the combinatorial Laplacian, after any history of calls: the
eigenvalues are exactly the numbers `sum_(d=1..k) (2 - 2 cos(2 pi d m / N))` for `m = 0, ..., N-1`, with their multiplicities, in
increasing order. -/
theorem C88_ring {N k : ℕ} (hN : 3 ≤ N) (hk : 2 * k < N) {lt : LapType} (hlt : lt = .combinatorial ∨ lt = .normalized) {g : Graph N ℝ}
    (hg : ring N k lt = .ok g) {S : Solvers N} (hS : Sound S) (ops : List (Op N)) {s : GState N} (hs : s = runAll S ops (GState.ofGraph g))
    (hc : s.lapType = .combinatorial) :
    (s.computeFourierBasis S none).1 = .ok () ∧ ∃ (e : Fin N → ℝ) (U : Matrix (Fin N) (Fin N) ℝ), (s.computeFourierBasis S none).2.basis = some ⟨N, e, U⟩ ∧
      Monotone e ∧ ∃ σ : Fin N ≃ Fin N, ∀ m : Fin N, e (σ m) = ∑ d ∈ Finset.range k, (2 - 2 * Real.cos (2 * Real.pi * (d + 1 : ℕ) * m.1 / N)) := by
  obtain ⟨g', h1, hb, -, hW⟩ := C68_weights hN hk hlt
  rw [hg] at h1
  obtain rfl := Except.ok.inj h1
  have hnn : NonnegW g.W.dense := fun i j => by rw [hW]; split <;> norm_num
  have hu : Undirected g.W.dense := fun i j => by
    rw [hW, hW]; exact if_congr (exists_congr fun d => by rw [or_comm]) rfl rfl
  obtain ⟨h1, e, U, h2, h3, -, -, -, σ, h4⟩ := fourier_spectrum hS hb hnn hu (by omega) (dft_det (N := N) (by omega))
    (f := fun m => ∑ d ∈ Finset.range k, (2 - 2 * Real.cos (2 * Real.pi * (d + 1 : ℕ) * m.1 / N))) (fun i m => by
      simp only [ring_weight hN hk hlt hg]
      have : ∀ j : Fin N, ((∑ d ∈ Finset.range k, ((if (i.1 + (d + 1)) % N = j.1 then (1 : ℝ) else 0) + if (j.1 + (d + 1)) % N = i.1 then 1 else 0) : ℝ) : ℂ) *
          (dft N i m - dft N j m) = ∑ d ∈ Finset.range k, ((if (i.1 + (d + 1)) % N = j.1 then (1 : ℂ) else 0) + if (j.1 + (d + 1)) % N = i.1 then 1 else 0) *
            (root N m.1 ^ i.1 - root N m.1 ^ j.1) := by
        intro j
        rw [← Finset.sum_mul]
        push_cast
        simp only [cast_ite]
        rfl
      simp only [this]
      rw [Finset.sum_comm, Finset.sum_congr rfl fun d _ => circ_sum m.1 (d + 1) i, ← Finset.sum_mul]
      push_cast
      rfl) ops hs hc
  exact ⟨h1, e, U, h2, h3, σ, h4⟩

/-! ## Cartesian products -/

/-- eigenvectors of a Cartesian product of graphs -/
theorem product_eig {a b : ℕ} {W : Matrix (Fin (a * b)) (Fin (a * b)) ℝ} {w1 : Fin a → Fin a → ℝ} {w2 : Fin b → Fin b → ℝ}
    (hW : ∀ i j, W i j = (if i.divNat = j.divNat then w2 i.modNat j.modNat else 0) + if i.modNat = j.modNat then w1 i.divNat j.divNat else 0)
    {A : Matrix (Fin a) (Fin a) ℂ} {B : Matrix (Fin b) (Fin b) ℂ} {f1 : Fin a → ℝ} {f2 : Fin b → ℝ}
    (h1 : ∀ i k, ∑ j, (w1 i j : ℂ) * (A i k - A j k) = (f1 k : ℂ) * A i k) (h2 : ∀ i k, ∑ j, (w2 i j : ℂ) * (B i k - B j k) = (f2 k : ℂ) * B i k)
    (i k : Fin (a * b)) :
    ∑ j : Fin (a * b), (W i j : ℂ) * (A i.divNat k.divNat * B i.modNat k.modNat - A j.divNat k.divNat * B j.modNat k.modNat) =
      ((f1 k.divNat + f2 k.modNat : ℝ) : ℂ) * (A i.divNat k.divNat * B i.modNat k.modNat) := by
  rw [← Equiv.sum_comp finProdFinEquiv, Fintype.sum_prod_type]
  have hd : ∀ x : Fin a × Fin b, (finProdFinEquiv x).divNat = x.1 := fun x => congrArg Prod.fst (finProdFinEquiv.symm_apply_apply x)
  have hm : ∀ x : Fin a × Fin b, (finProdFinEquiv x).modNat = x.2 := fun x => congrArg Prod.snd (finProdFinEquiv.symm_apply_apply x)
  simp only [hW, hd, hm]
  push_cast
  simp only [add_mul, Finset.sum_add_distrib]
  rw [add_comm]
  congr 1
  · have : ∀ x : Fin a, ∑ y : Fin b, (((if i.modNat = y then w1 i.divNat x else 0 : ℝ)) : ℂ) *
        (A i.divNat k.divNat * B i.modNat k.modNat - A x k.divNat * B y k.modNat) = (w1 i.divNat x : ℂ) * (A i.divNat k.divNat - A x k.divNat) * B i.modNat k.modNat := by
      intro x
      rw [Finset.sum_eq_single i.modNat (fun y _ hy => by rw [if_neg (Ne.symm hy)]; simp) (by simp), if_pos rfl]
      ring
    simp only [this, ← Finset.sum_mul, h1]
    ring
  · rw [Finset.sum_eq_single i.divNat (fun x _ hx => by simp [Ne.symm hx]) (by simp)]
    simp only [if_true, ← mul_sub]
    have : ∀ y : Fin b, (w2 i.modNat y : ℂ) * (A i.divNat k.divNat * (B i.modNat k.modNat - B y k.modNat)) =
        A i.divNat k.divNat * ((w2 i.modNat y : ℂ) * (B i.modNat k.modNat - B y k.modNat)) := fun y => by ring
    simp only [this, ← Finset.mul_sum, h2]
    ring

theorem product_det {a b : ℕ} {A : Matrix (Fin a) (Fin a) ℂ} {B : Matrix (Fin b) (Fin b) ℂ} (hA : A.det ≠ 0) (hB : B.det ≠ 0) :
    (Matrix.of fun i k : Fin (a * b) => A i.divNat k.divNat * B i.modNat k.modNat).det ≠ 0 := by
  have : (Matrix.of fun i k : Fin (a * b) => A i.divNat k.divNat * B i.modNat k.modNat) =
      (Matrix.kroneckerMap (· * ·) A B).submatrix finProdFinEquiv.symm finProdFinEquiv.symm := by
    ext i k
    rfl
  rw [this, det_submatrix_equiv_self, det_kronecker]
  exact mul_ne_zero (pow_ne_zero _ hA) (pow_ne_zero _ hB)

/-! ## Torus -/

/-- **C88** `compute_fourier_basis()` on `Torus(Nv, Mv)` with the combinatorial Laplacian, after any history of calls: the eigenvalues
are exactly the sums `(2 - 2 cos(2 pi a / Mv)) + (2 - 2 cos(2 pi b / Nv))` for `a = 0, ..., Mv-1` and `b = 0, ..., Nv-1`, with their multiplicities, in increasing order. -/
theorem C88_torus {Nv Mv : ℕ} (hN : 0 < Nv) (hM : 0 < Mv) {lt : LapType} (hlt : lt = .combinatorial ∨ lt = .normalized) {g : Graph (Mv * Nv) ℝ}
    (hg : torus Nv Mv lt = .ok g) {S : Solvers (Mv * Nv)} (hS : Sound S) (ops : List (Op (Mv * Nv))) {s : GState (Mv * Nv)}
    (hs : s = runAll S ops (GState.ofGraph g)) (hc : s.lapType = .combinatorial) :
    (s.computeFourierBasis S none).1 = .ok () ∧ ∃ (e : Fin (Mv * Nv) → ℝ) (U : Matrix (Fin (Mv * Nv)) (Fin (Mv * Nv)) ℝ),
      (s.computeFourierBasis S none).2.basis = some ⟨Mv * Nv, e, U⟩ ∧ Monotone e ∧
      ∃ σ : Fin Mv × Fin Nv ≃ Fin (Mv * Nv), ∀ a b, e (σ (a, b)) =
        (2 - 2 * Real.cos (2 * Real.pi * a.1 / Mv)) + (2 - 2 * Real.cos (2 * Real.pi * b.1 / Nv)) := by
  obtain ⟨g', h1, hb, -, hW⟩ := C69_weights hN hM hlt
  rw [hg] at h1
  obtain rfl := Except.ok.inj h1
  have hcy : ∀ N x y, 0 ≤ cycle N x y := fun N x y => by unfold cycle; positivity
  have hcs : ∀ N x y, cycle N x y = cycle N y x := fun N x y => by unfold cycle; rw [add_comm]
  have hnn : NonnegW g.W.dense := fun i j => by
    rw [hW]
    refine add_nonneg ?_ ?_ <;> split <;> first | exact hcy _ _ _ | exact le_rfl
  have hu : Undirected g.W.dense := fun i j => by
    rw [hW, hW, hcs Nv (i.1 % Nv), hcs Mv (i.1 / Nv)]
    exact congrArg₂ _ (if_congr eq_comm rfl rfl) (if_congr eq_comm rfl rfl)
  have hcyc : ∀ {N : ℕ} (i m : Fin N), ∑ j : Fin N, ((cycle N i.1 j.1 : ℝ) : ℂ) * (dft N i m - dft N j m) =
      ((2 - 2 * Real.cos (2 * Real.pi * m.1 / N) : ℝ) : ℂ) * dft N i m := by
    intro N i m
    have := circ_sum (N := N) m.1 1 i
    rw [Nat.cast_one, mul_one] at this
    simp only [cycle]
    push_cast at this ⊢
    simp only [cast_ite]
    exact this
  obtain ⟨h1, e, U, h2, h3, -, -, -, σ, h4⟩ := fourier_spectrum hS hb hnn hu (Nat.mul_pos hM hN)
    (product_det (dft_det hM) (dft_det hN)) (f := fun m => (2 - 2 * Real.cos (2 * Real.pi * m.divNat.1 / Mv)) + (2 - 2 * Real.cos (2 * Real.pi * m.modNat.1 / Nv)))
    (fun i m => product_eig (w1 := fun x y => cycle Mv x.1 y.1) (w2 := fun x y => cycle Nv x.1 y.1) (fun i j => by
      rw [hW]; simp only [Fin.ext_iff, Fin.coe_divNat, Fin.coe_modNat]) hcyc hcyc i m) ops hs hc
  refine ⟨h1, e, U, h2, h3, finProdFinEquiv.trans σ, fun a b => ?_⟩
  have hd : (finProdFinEquiv (a, b)).divNat = a := congrArg Prod.fst (finProdFinEquiv.symm_apply_apply (a, b))
  have hm : (finProdFinEquiv (a, b)).modNat = b := congrArg Prod.snd (finProdFinEquiv.symm_apply_apply (a, b))
  rw [Equiv.trans_apply, h4, hd, hm]

/-! ## Grid2d -/

theorem grid_weight (x y z w : ℕ) : (if x - y + (y - x) + (z - w + (w - z)) = 1 then (1 : ℝ) else 0) =
    (if x = y then if z + 1 = w ∨ w + 1 = z then 1 else 0 else 0) + if z = w then if x + 1 = y ∨ y + 1 = x then 1 else 0 else 0 := by
  by_cases h1 : x = y
  · subst h1
    by_cases h2 : z = w
    · subst h2; simp
    · rw [if_pos rfl, if_neg h2, add_zero]; exact if_congr (by omega) rfl rfl
  · rw [if_neg h1, zero_add]
    by_cases h2 : z = w
    · subst h2; rw [if_pos rfl]; exact if_congr (by omega) rfl rfl
    · rw [if_neg h2, if_neg (by omega)]

/-- **C88** `compute_fourier_basis()` on `Grid2d(N1, N2)` without diagonals and with the combinatorial Laplacian, after any history of calls: the
eigenvalues are exactly the sums `(2 - 2 cos(pi a / N1)) + (2 - 2 cos(pi b / N2))` for `a = 0, ..., N1-1` and `b = 0, ..., N2-1`, with their multiplicities,
in increasing order. -/
theorem C88_grid {N1 N2 : ℕ} (hN1 : 0 < N1) (hN2 : 2 ≤ N2) {lt : LapType} (hlt : lt = .combinatorial ∨ lt = .normalized) {g : Graph (N1 * N2) ℝ}
    (hg : grid2d N1 N2 0 lt = .ok g) {S : Solvers (N1 * N2)} (hS : Sound S) (ops : List (Op (N1 * N2))) {s : GState (N1 * N2)}
    (hs : s = runAll S ops (GState.ofGraph g)) (hc : s.lapType = .combinatorial) :
    (s.computeFourierBasis S none).1 = .ok () ∧ ∃ (e : Fin (N1 * N2) → ℝ) (U : Matrix (Fin (N1 * N2)) (Fin (N1 * N2)) ℝ),
      (s.computeFourierBasis S none).2.basis = some ⟨N1 * N2, e, U⟩ ∧ Monotone e ∧
      ∃ σ : Fin N1 × Fin N2 ≃ Fin (N1 * N2), ∀ a b, e (σ (a, b)) =
        (2 - 2 * Real.cos (Real.pi * a.1 / N1)) + (2 - 2 * Real.cos (Real.pi * b.1 / N2)) := by
  obtain ⟨g', h1, hb, -, hW⟩ := C70_weights hN1 hN2 0 hlt
  rw [hg] at h1
  obtain rfl := Except.ok.inj h1
  have hW' : ∀ i j : Fin (N1 * N2), g.W.dense i j = if ndist (i.1 / N2) (j.1 / N2) + ndist (i.1 % N2) (j.1 % N2) = 1 then 1 else 0 := by
    intro i j; rw [hW]; simp
  have hnd : ∀ x y, ndist x y = ndist y x := fun x y => by unfold ndist; omega
  have hnn : NonnegW g.W.dense := fun i j => by rw [hW']; split <;> norm_num
  have hu : Undirected g.W.dense := fun i j => by rw [hW', hW', hnd (i.1 / N2), hnd (i.1 % N2)]
  let P : (N : ℕ) → Fin N → Fin N → ℝ := fun N i j => if i.1 + 1 = j.1 ∨ j.1 + 1 = i.1 then 1 else 0
  have hpath : ∀ {N : ℕ} (hN : 0 < N) (i m : Fin N), ∑ j : Fin N, ((P N i j : ℝ) : ℂ) * (((dctMatrix N).map (fun x : ℝ => (x : ℂ))) i m - ((dctMatrix N).map (fun x : ℝ => (x : ℂ))) j m) =
      ((2 - 2 * Real.cos (Real.pi * m.1 / N) : ℝ) : ℂ) * ((dctMatrix N).map (fun x : ℝ => (x : ℂ))) i m := by
    intro N hN i m
    let W : Matrix (Fin N) (Fin N) ℝ := Matrix.of fun i j => P N i j
    have hWu : Undirected W := fun i j => by
      change P N i j = P N j i
      exact if_congr or_comm rfl rfl
    have h := dctMatrix_eig (W := W) hN (fun _ _ => rfl)
    have h2 := combLap_apply hWu ((dctMatrix N).map (fun x : ℝ => (x : ℂ))) i m
    refine h2.symm.trans ?_
    have h3 : (combLap W).map (fun x : ℝ => (x : ℂ)) * (dctMatrix N).map (fun x : ℝ => (x : ℂ)) = (combLap W * dctMatrix N).map (fun x : ℝ => (x : ℂ)) :=
      (Matrix.map_mul (f := Complex.ofRealHom)).symm
    rw [h3, h, map_apply, mul_diagonal, map_apply]
    push_cast
    ring
  have hdet : ∀ {N : ℕ}, 0 < N → ((dctMatrix N).map (fun x : ℝ => (x : ℂ))).det ≠ 0 := by
    intro N hN
    have : ((dctMatrix N).map (fun x : ℝ => (x : ℂ))).det = ((dctMatrix N).det : ℂ) := (RingHom.map_det Complex.ofRealHom _).symm
    rw [this]
    exact Complex.ofReal_ne_zero.2 (det_of_orthonormal (dctMatrix_orthonormal hN))
  have hN2' : 0 < N2 := by omega
  obtain ⟨h1, e, U, h2, h3, -, -, -, σ, h4⟩ := fourier_spectrum hS hb hnn hu (Nat.mul_pos hN1 hN2')
    (product_det (hdet hN1) (hdet hN2')) (f := fun m => (2 - 2 * Real.cos (Real.pi * m.divNat.1 / N1)) + (2 - 2 * Real.cos (Real.pi * m.modNat.1 / N2)))
    (fun i m => product_eig (w1 := P N1) (w2 := P N2) (fun i j => by
      rw [hW']
      simp only [P, Fin.ext_iff, Fin.coe_divNat, Fin.coe_modNat, ndist]
      exact grid_weight _ _ _ _) (hpath hN1) (hpath hN2') i m) ops hs hc
  refine ⟨h1, e, U, h2, h3, finProdFinEquiv.trans σ, fun a b => ?_⟩
  have hd : (finProdFinEquiv (a, b)).divNat = a := congrArg Prod.fst (finProdFinEquiv.symm_apply_apply (a, b))
  have hm : (finProdFinEquiv (a, b)).modNat = b := congrArg Prod.snd (finProdFinEquiv.symm_apply_apply (a, b))
  rw [Equiv.trans_apply, h4, hd, hm]

end PyGSP.Spectrum
