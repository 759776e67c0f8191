import Verif.Lemmas.Resolution
import Verif.Spec.Classical
import Verif.Props.Relabel
import Verif.Props.Diffusion
import Verif.Props.Components

/-!
# C108: filtering on the classical domains

On a ring or a torus the exact method is a circular convolution, on a path or a grid the multiplication of the discrete cosine transform, on a complete graph or a
star an explicit combination of averages.
-/

namespace PyGSP

open Matrix Spec GState Gen

/-- Exact filtering with a resolution of the identity. -/
theorem filter_resolution {n : ℕ} {S : Solvers n} {g : Graph n ℝ} {s : GState n} (h : Ready S g s) (hc : s.lapType = .combinatorial) {ι : Type} [Fintype ι]
    {P : ι → Matrix (Fin n) (Fin n) ℝ} {l : ι → ℝ} (hP : Resolution (combLap g.W.dense) P l) {f : Bank} {A : Set ℝ} {φ : Fin f.Nf → ℝ → ℝ}
    (hφ : ∀ (k : ℕ) (x : Fin k → ℝ), 0 < k → (∀ j, x j ∈ A) → f.evaluate x = .ok fun i j => φ i (x j)) (hA : ∀ m, l m ∈ A) (order : ℕ) (x : Fin n → ℝ) :
    (f.filter S (Arr.of1 x) .exact order s).1 = .ok (Arr.of3 fun v (_ : Fin 1) i => ∑ w, (∑ m, φ i (l m) * P m v w) * x w).squeeze := by
  obtain ⟨hist, hs⟩ := h.reached
  have hL := L_combinatorial h.sound h.built hist hs hc
  obtain ⟨e, U, h1, h2⟩ := h.basis
  have hsym : (combLap g.W.dense)ᵀ = combLap g.W.dense := Spectrum.combLap_symm
  rw [hL] at h2
  have hy : f.evaluate e = .ok fun i j => φ i (e j) := hφ n e h.pos fun j => by
    obtain ⟨m, hm⟩ := hP.isEigenvalue hsym (h2.isEigenvalue j)
    rw [← hm]
    exact hA m
  rw [C28_one_signal S f s ⟨n, e, U⟩ h1 rfl _ hy order x]
  congr 3
  funext v _ i
  rw [hP.spectral h2 hsym]
  simp only [Matrix.mulVec, dotProduct, Matrix.sum_apply, Matrix.smul_apply, smul_eq_mul]

variable {f : Bank} {A : Set ℝ} {φ : Fin f.Nf → ℝ → ℝ}

/-! ### Ring -/

theorem cos_fin_sub {N : ℕ} (m : ℕ) (v w : Fin N) :
    Real.cos (2 * Real.pi * m * ((v - w : Fin N).val : ℝ) / N) = Real.cos (2 * Real.pi * m * ((v.val : ℝ) - w.val) / N) := by
  have hN : (N : ℝ) ≠ 0 := by exact_mod_cast v.pos.ne'
  have hv := v.isLt
  have hw := w.isLt
  rw [Fin.sub_def]
  dsimp only
  by_cases h : w.val ≤ v.val
  · rw [show N - w.val + v.val = (v.val - w.val) + N by omega, Nat.add_mod_right, Nat.mod_eq_of_lt (by omega), Nat.cast_sub h]
  · rw [Nat.mod_eq_of_lt (by omega), Nat.cast_add, Nat.cast_sub (by omega)]
    rw [show 2 * Real.pi * m * ((N : ℝ) - w.val + v.val) / N = 2 * Real.pi * m * ((v.val : ℝ) - w.val) / N + m * (2 * Real.pi) by field_simp; ring]
    exact Real.cos_add_nat_mul_two_pi _ _

noncomputable def waveP (N m : ℕ) : Matrix (Fin N) (Fin N) ℝ := Matrix.of fun i j => 1 / N * Real.cos (2 * Real.pi * m * ((i.val : ℝ) - j.val) / N)

theorem waveP_symm (N m : ℕ) (i j : Fin N) : waveP N m i j = waveP N m j i := by
  unfold waveP
  rw [of_apply, of_apply, ← Real.cos_neg]
  congr 2
  ring

theorem waveP_sum {N : ℕ} (i j : Fin N) : ∑ m : Fin N, waveP N m i j = if i = j then 1 else 0 := by
  have hN : (N : ℝ) ≠ 0 := by exact_mod_cast i.pos.ne'
  simp only [waveP, of_apply, ← Finset.mul_sum, sum_cos]
  split <;> simp [hN]

theorem ring_resolution {N k : ℕ} (hN : 3 ≤ N) (hk : 2 * k < N) {lt : LapType} (hlt : lt = .combinatorial ∨ lt = .normalized) {g : Graph N ℝ}
    (hg : ring N k lt = .ok g) : Resolution (combLap g.W.dense) (fun m : Fin N => waveP N m) fun m => ringFreq N k m := by
  have hu : Undirected g.W.dense := (C68_structure hN hk hg).1
  refine Resolution.ofModes hu (fun m => ?_) ?_ fun m j => ?_
  · ext i j
    exact waveP_symm N m j i
  · ext i j
    rw [Matrix.sum_apply, waveP_sum, Matrix.one_apply]
  · have hw : (fun i j => g.W.dense i j) = fun i j => ∑ d ∈ Finset.range k,
        ((if (i.1 + (d + 1)) % N = j.1 then (1 : ℝ) else 0) + if (j.1 + (d + 1)) % N = i.1 then 1 else 0) := by
      funext i j
      exact Spectrum.ring_weight hN hk hlt hg i j
    change IsMode (fun i j => g.W.dense i j) _ _
    rw [hw]
    exact IsMode.sum _ fun d _ => (isMode_circle m (d + 1) j).smul _

/-- **C108** On a ring, filtering is the circular convolution with an even impulse response, whose discrete Fourier transform is the response to the frequencies of
the ring. -/
theorem C108_ring {N k : ℕ} (hN : 3 ≤ N) (hk : 2 * k < N) {lt : LapType} {g : Graph N ℝ} (hg : ring N k lt = .ok g) {S : Solvers N} {s : GState N}
    (h : Ready S g s) (hc : s.lapType = .combinatorial)
    (hφ : ∀ (k : ℕ) (x : Fin k → ℝ), 0 < k → (∀ j, x j ∈ A) → f.evaluate x = .ok fun i j => φ i (x j)) (hA : ∀ m : Fin N, ringFreq N k m ∈ A)
    (order : ℕ) (x : Fin N → ℝ) :
    (f.filter S (Arr.of1 x) .exact order s).1 = .ok (Arr.of3 fun v (_ : Fin 1) i =>
      circConv (fun t => (∑ m : Fin N, φ i (ringFreq N k m) * Real.cos (2 * Real.pi * m.val * t.val / N)) / N) x v).squeeze := by
  have hlt : lt = .combinatorial ∨ lt = .normalized := by
    rcases lt with _ | _ | name
    · exact .inl rfl
    · exact .inr rfl
    · unfold ring at hg
      rw [if_neg (by omega), if_neg (by omega), ofEdges_unknown (ring_body_bound hN)] at hg
      cases hg
  rw [filter_resolution h hc (ring_resolution hN hk hlt hg) hφ hA order x]
  congr 3
  funext v _ i
  unfold circConv
  refine Finset.sum_congr rfl fun w _ => ?_
  congr 1
  simp only [cos_fin_sub, waveP, of_apply]
  rw [Finset.sum_div]
  refine Finset.sum_congr rfl fun m _ => ?_
  ring

/-! ### Torus -/

theorem prod_resolution {a b : ℕ} {W : Matrix (Fin (a * b)) (Fin (a * b)) ℝ} {w1 : Fin a → Fin a → ℝ} {w2 : Fin b → Fin b → ℝ} (hu : Undirected W)
    (hW : ∀ i j, W i j = (if i.divNat = j.divNat then w2 i.modNat j.modNat else 0) + if i.modNat = j.modNat then w1 i.divNat j.divNat else 0)
    {ι κ : Type} [Fintype ι] [Fintype κ] {P : ι → Fin a → Fin a → ℝ} {Q : κ → Fin b → Fin b → ℝ} {f1 : ι → ℝ} {f2 : κ → ℝ}
    (hP : ∀ m i j, P m i j = P m j i) (hQ : ∀ m i j, Q m i j = Q m j i) (sP : ∀ i j, ∑ m, P m i j = if i = j then 1 else 0)
    (sQ : ∀ i j, ∑ m, Q m i j = if i = j then 1 else 0) (mP : ∀ m j, IsMode w1 (f1 m) fun i => P m i j) (mQ : ∀ m j, IsMode w2 (f2 m) fun i => Q m i j) :
    Resolution (combLap W) (fun m : ι × κ => Matrix.of fun i j : Fin (a * b) => P m.1 i.divNat j.divNat * Q m.2 i.modNat j.modNat) fun m => f1 m.1 + f2 m.2 := by
  refine Resolution.ofModes hu (fun m => ?_) ?_ fun m j => ?_
  · ext i j
    simp only [transpose_apply, of_apply]
    rw [hP, hQ]
  · ext i j
    rw [Matrix.sum_apply, Fintype.sum_prod_type]
    simp only [of_apply, ← Finset.mul_sum, ← Finset.sum_mul, sP, sQ]
    rw [Matrix.one_apply]
    have : i = j ↔ i.divNat = j.divNat ∧ i.modNat = j.modNat := by
      constructor
      · rintro rfl; exact ⟨rfl, rfl⟩
      · rintro ⟨h1, h2⟩
        exact finProdFinEquiv.symm.injective (Prod.ext h1 h2)
    by_cases h1 : i.divNat = j.divNat <;> by_cases h2 : i.modNat = j.modNat <;> simp [this, h1, h2]
  · exact isMode_prod hW (mP m.1 j.divNat) (mQ m.2 j.modNat)

theorem torus_resolution {Nv Mv : ℕ} (hN : 0 < Nv) (hM : 0 < Mv) {lt : LapType} (hlt : lt = .combinatorial ∨ lt = .normalized) {g : Graph (Mv * Nv) ℝ}
    (hg : torus Nv Mv lt = .ok g) :
    Resolution (combLap g.W.dense) (fun m : Fin Mv × Fin Nv => Matrix.of fun i j : Fin (Mv * Nv) => waveP Mv m.1 i.divNat j.divNat * waveP Nv m.2 i.modNat j.modNat)
      fun m => ringFreq Mv 1 m.1 + ringFreq Nv 1 m.2 := by
  obtain ⟨g', h1, -, -, hW⟩ := C69_weights hN hM hlt
  rw [hg] at h1
  obtain rfl := Except.ok.inj h1
  have hu := (C69_structure hN hM hlt hg).1
  have hm : ∀ {N : ℕ} (m j : Fin N), IsMode (fun x y : Fin N => cycle N x.1 y.1) (ringFreq N 1 m) fun i => waveP N m i j := by
    intro N m j
    have := (isMode_circle (N := N) m 1 j).smul (1 / N)
    unfold ringFreq
    rw [Finset.sum_range_one, zero_add]
    exact this
  exact prod_resolution (P := fun m : Fin Mv => waveP Mv m) (Q := fun m : Fin Nv => waveP Nv m) (f1 := fun m : Fin Mv => ringFreq Mv 1 m)
    (f2 := fun m : Fin Nv => ringFreq Nv 1 m) (w1 := fun x y => cycle Mv x.1 y.1) (w2 := fun x y => cycle Nv x.1 y.1) hu (fun i j => by
    rw [hW]; simp only [Fin.ext_iff, Fin.coe_divNat, Fin.coe_modNat]) (fun m i j => waveP_symm _ _ _ _) (fun m i j => waveP_symm _ _ _ _) waveP_sum waveP_sum hm hm

/-- The vertex of row `a` and column `b`. -/
def cell {a b : ℕ} (i : Fin a) (j : Fin b) : Fin (a * b) := finProdFinEquiv (i, j)

theorem cell_div {a b : ℕ} (i : Fin a) (j : Fin b) : (cell i j).divNat = i := congrArg Prod.fst (finProdFinEquiv.symm_apply_apply (i, j))
theorem cell_mod {a b : ℕ} (i : Fin a) (j : Fin b) : (cell i j).modNat = j := congrArg Prod.snd (finProdFinEquiv.symm_apply_apply (i, j))
theorem cell_eq {a b : ℕ} (v : Fin (a * b)) : cell v.divNat v.modNat = v := finProdFinEquiv.apply_symm_apply v

theorem cell_val {a b : ℕ} (i : Fin a) (j : Fin b) : (cell i j).val = b * i.val + j.val := by
  rw [cell]
  simp [finProdFinEquiv, Nat.add_comm]

theorem sum_cell {a b : ℕ} (F : Fin (a * b) → ℝ) : ∑ w, F w = ∑ i, ∑ j, F (cell i j) := by
  rw [← Equiv.sum_comp finProdFinEquiv, Fintype.sum_prod_type]
  rfl

/-- **C108** On a torus, filtering is the two-dimensional circular convolution with an even impulse response, whose two-dimensional Fourier transform is the response
to the frequencies of the torus. -/
theorem C108_torus {Nv Mv : ℕ} {lt : LapType} (hlt : lt = .combinatorial ∨ lt = .normalized) {g : Graph (Mv * Nv) ℝ} (hg : torus Nv Mv lt = .ok g)
    {S : Solvers (Mv * Nv)} {s : GState (Mv * Nv)} (h : Ready S g s) (hc : s.lapType = .combinatorial)
    (hφ : ∀ (k : ℕ) (x : Fin k → ℝ), 0 < k → (∀ j, x j ∈ A) → f.evaluate x = .ok fun i j => φ i (x j))
    (hA : ∀ (a : Fin Mv) (b : Fin Nv), ringFreq Mv 1 a + ringFreq Nv 1 b ∈ A) (order : ℕ) (x : Fin (Mv * Nv) → ℝ) :
    ∃ y : Fin f.Nf → Fin Mv → Fin Nv → ℝ,
      (f.filter S (Arr.of1 x) .exact order s).1 = .ok (Arr.of3 fun v (_ : Fin 1) i => y i v.divNat v.modNat).squeeze ∧
      ∀ i, y i = circConv2 (fun t u => (∑ a : Fin Mv, ∑ b : Fin Nv, φ i (ringFreq Mv 1 a + ringFreq Nv 1 b) *
        (Real.cos (2 * Real.pi * a.val * t.val / Mv) * Real.cos (2 * Real.pi * b.val * u.val / Nv))) / (Mv * Nv)) fun a b => x (cell a b) := by
  have hpos := h.pos
  have hN : 0 < Nv := Nat.pos_of_mul_pos_left hpos
  have hM : 0 < Mv := Nat.pos_of_mul_pos_right hpos
  refine ⟨_, ?_, fun i => rfl⟩
  rw [filter_resolution h hc (torus_resolution hN hM hlt hg) hφ (fun m => hA m.1 m.2) order x]
  congr 3
  funext v _ i
  unfold circConv2
  rw [sum_cell]
  refine Finset.sum_congr rfl fun a _ => Finset.sum_congr rfl fun b _ => ?_
  congr 1
  simp only [cos_fin_sub, waveP, of_apply, cell_div, cell_mod]
  rw [Fintype.sum_prod_type, Finset.sum_div]
  refine Finset.sum_congr rfl fun m _ => ?_
  rw [Finset.sum_div]
  refine Finset.sum_congr rfl fun m' _ => ?_
  field_simp

/-! ### Path and Grid2d -/

theorem dctMatrix_eq (N : ℕ) (i k : Fin N) : Spectrum.dctMatrix N i k = dctVec N k i := rfl

theorem dctVec_sum {N : ℕ} (i j : Fin N) : ∑ k, dctVec N k i * dctVec N k j = if i = j then 1 else 0 := dct_sum i j

theorem path_resolution {N : ℕ} {W : Matrix (Fin N) (Fin N) ℝ} (hW : ∀ i j, W i j = if i.1 + 1 = j.1 ∨ j.1 + 1 = i.1 then 1 else 0) :
    Resolution (combLap W) (fun k : Fin N => Matrix.of fun i j => dctVec N k i * dctVec N k j) fun k => pathFreq N k := by
  have hu : Undirected W := fun i j => by rw [hW, hW]; exact if_congr or_comm rfl rfl
  refine Resolution.ofModes hu (fun k => ?_) ?_ fun k j => ?_
  · ext i j
    simp only [transpose_apply, of_apply]
    ring
  · ext i j
    rw [Matrix.sum_apply]
    simp only [of_apply]
    rw [dctVec_sum, Matrix.one_apply]
  · have := (isMode_path k).smul (dctVec N k j)
    have e : (fun i j => W i j) = fun i j : Fin N => if i.1 + 1 = j.1 ∨ j.1 + 1 = i.1 then (1 : ℝ) else 0 := funext fun i => funext fun j => hW i j
    change IsMode (fun i j => W i j) _ _
    rw [e]
    intro i
    have h2 := this i
    simp only [dctMatrix_eq, of_apply] at h2 ⊢
    simp only [mul_comm (dctVec N k _) (dctVec N k j)]
    exact h2

/-- **C108** On a path, filtering multiplies the discrete cosine transform by the response to the frequencies of the path. -/
theorem C108_path {N : ℕ} {lt : LapType} {g : Graph N ℝ} (hg : path N false lt = .ok g) {S : Solvers N} {s : GState N}
    (h : Ready S g s) (hc : s.lapType = .combinatorial)
    (hφ : ∀ (k : ℕ) (x : Fin k → ℝ), 0 < k → (∀ j, x j ∈ A) → f.evaluate x = .ok fun i j => φ i (x j)) (hA : ∀ k : Fin N, pathFreq N k ∈ A)
    (order : ℕ) (x : Fin N → ℝ) :
    (f.filter S (Arr.of1 x) .exact order s).1 = .ok (Arr.of3 fun v (_ : Fin 1) i => idctOf (fun k => φ i (pathFreq N k) * dctOf x k) v).squeeze := by
  have hlt : lt = .combinatorial ∨ lt = .normalized := by
    rcases lt with _ | _ | name
    · exact .inl rfl
    · exact .inr rfl
    · rw [(C67_errors false (.other name) N name).2] at hg; cases hg
  obtain ⟨g', h1, -, -, hW⟩ := C67_weights h.pos false hlt
  rw [hg] at h1
  obtain rfl := Except.ok.inj h1
  rw [filter_resolution h hc (path_resolution (fun i j => by rw [hW]; simp)) hφ hA order x]
  congr 3
  funext v _ i
  unfold idctOf dctOf
  simp only [of_apply, Finset.sum_mul, Finset.mul_sum]
  rw [Finset.sum_comm]
  refine Finset.sum_congr rfl fun k _ => Finset.sum_congr rfl fun w _ => ?_
  ring

theorem grid_resolution {N1 N2 : ℕ} (hN1 : 0 < N1) (hN2 : 2 ≤ N2) {lt : LapType} (hlt : lt = .combinatorial ∨ lt = .normalized) {g : Graph (N1 * N2) ℝ}
    (hg : grid2d N1 N2 0 lt = .ok g) :
    Resolution (combLap g.W.dense) (fun m : Fin N1 × Fin N2 => Matrix.of fun i j : Fin (N1 * N2) =>
      dctVec N1 m.1 i.divNat * dctVec N1 m.1 j.divNat * (dctVec N2 m.2 i.modNat * dctVec N2 m.2 j.modNat)) fun m => pathFreq N1 m.1 + pathFreq N2 m.2 := by
  obtain ⟨g', h1, -, -, hW⟩ := C70_weights hN1 hN2 0 hlt
  rw [hg] at h1
  obtain rfl := Except.ok.inj h1
  have hu := (C70_structure hN1 hN2 hlt hg).1
  have hm : ∀ {N : ℕ} (k j : Fin N), IsMode (fun i j : Fin N => if i.1 + 1 = j.1 ∨ j.1 + 1 = i.1 then (1 : ℝ) else 0) (pathFreq N k)
      fun i => dctVec N k i * dctVec N k j := by
    intro N k j i
    have h2 := ((isMode_path k).smul (dctVec N k j)) i
    simp only [dctMatrix_eq] at h2 ⊢
    simp only [mul_comm (dctVec N k _) (dctVec N k j)]
    exact h2
  exact prod_resolution (P := fun (m : Fin N1) i j => dctVec N1 m i * dctVec N1 m j) (Q := fun (m : Fin N2) i j => dctVec N2 m i * dctVec N2 m j)
    (f1 := fun m : Fin N1 => pathFreq N1 m) (f2 := fun m : Fin N2 => pathFreq N2 m)
    (w1 := fun i j => if i.1 + 1 = j.1 ∨ j.1 + 1 = i.1 then (1 : ℝ) else 0) (w2 := fun i j => if i.1 + 1 = j.1 ∨ j.1 + 1 = i.1 then (1 : ℝ) else 0) hu (fun i j => by
      rw [hW]
      simp only [max_self, ite_self, Fin.ext_iff, Fin.coe_divNat, Fin.coe_modNat, ndist]
      exact Spectrum.grid_weight _ _ _ _) (fun m i j => mul_comm _ _) (fun m i j => mul_comm _ _) dctVec_sum dctVec_sum hm hm

/-- **C108** On a grid, filtering multiplies the two-dimensional discrete cosine transform by the response to the frequencies of the grid. -/
theorem C108_grid {N1 N2 : ℕ} (hN2 : 2 ≤ N2) {lt : LapType} (hlt : lt = .combinatorial ∨ lt = .normalized) {g : Graph (N1 * N2) ℝ}
    (hg : grid2d N1 N2 0 lt = .ok g) {S : Solvers (N1 * N2)} {s : GState (N1 * N2)} (h : Ready S g s) (hc : s.lapType = .combinatorial)
    (hφ : ∀ (k : ℕ) (x : Fin k → ℝ), 0 < k → (∀ j, x j ∈ A) → f.evaluate x = .ok fun i j => φ i (x j))
    (hA : ∀ (a : Fin N1) (b : Fin N2), pathFreq N1 a + pathFreq N2 b ∈ A) (order : ℕ) (x : Fin (N1 * N2) → ℝ) :
    ∃ (X : Fin N1 → Fin N2 → ℝ) (y : Fin f.Nf → Fin N1 → Fin N2 → ℝ),
      (f.filter S (Arr.of1 x) .exact order s).1 = .ok (Arr.of3 fun v (_ : Fin 1) i => y i v.divNat v.modNat).squeeze ∧
      (∀ a b, X a b = dctOf (fun r => dctOf (fun c => x (cell r c)) b) a) ∧
      ∀ i r c, y i r c = idctOf (fun a => idctOf (fun b => φ i (pathFreq N1 a + pathFreq N2 b) * X a b) c) r := by
  have hN1 : 0 < N1 := Nat.pos_of_mul_pos_right h.pos
  refine ⟨_, _, ?_, fun a b => rfl, fun i r c => rfl⟩
  rw [filter_resolution h hc (grid_resolution hN1 hN2 hlt hg) hφ (fun m => hA m.1 m.2) order x]
  congr 3
  funext v _ i
  unfold idctOf dctOf
  simp only [of_apply, Fintype.sum_prod_type, Finset.sum_mul, Finset.mul_sum]
  rw [Finset.sum_comm]
  refine Finset.sum_congr rfl fun a _ => ?_
  rw [Finset.sum_comm]
  refine Finset.sum_congr rfl fun b _ => ?_
  rw [sum_cell]
  refine Finset.sum_congr rfl fun r _ => Finset.sum_congr rfl fun c _ => ?_
  rw [cell_div, cell_mod]
  ring

/-! ### FullConnected and Star -/

/-- **C108** On a complete graph, filtering mixes the signal with its average. -/
theorem C108_full {N : ℕ} {lt : LapType} (hlt : lt = .combinatorial ∨ lt = .normalized) {g : Graph N ℝ} (hg : fullConnected N lt = .ok g) {S : Solvers N}
    {s : GState N} (h : Ready S g s) (hc : s.lapType = .combinatorial)
    (hφ : ∀ (k : ℕ) (x : Fin k → ℝ), 0 < k → (∀ j, x j ∈ A) → f.evaluate x = .ok fun i j => φ i (x j)) (h0 : 0 ∈ A) (h1 : (N : ℝ) ∈ A)
    (order : ℕ) (x : Fin N → ℝ) :
    (f.filter S (Arr.of1 x) .exact order s).1 = .ok (Arr.of3 fun v (_ : Fin 1) i =>
      φ i 0 * ((∑ w, x w) / N) + φ i N * (x v - (∑ w, x w) / N)).squeeze := by
  obtain ⟨g', e, -, -, hW, hu, -⟩ := C72_full N hlt
  rw [hg] at e
  obtain rfl := Except.ok.inj e
  have hN : (N : ℝ) ≠ 0 := by exact_mod_cast h.pos.ne'
  have hsum : ∀ (i : Fin N) (x : Fin N → ℝ), ∑ j, g.W.dense i j * (x i - x j) = N * x i - ∑ j, x j := by
    intro i x
    have : ∀ j, g.W.dense i j * (x i - x j) = x i - x j := fun j => by
      rw [hW]
      split
      · rename_i h; rw [h]; ring
      · ring
    simp [this, Finset.sum_sub_distrib]
  have hR : Resolution (combLap g.W.dense) (fun m : Bool => if m then 1 - Matrix.of fun _ _ => 1 / (N : ℝ) else Matrix.of fun _ _ => 1 / (N : ℝ))
      fun m => if m then (N : ℝ) else 0 := by
    refine Resolution.ofModes hu (fun m => ?_) ?_ fun m k i => ?_
    · cases m
      · ext i j; rfl
      · ext i j
        simp only [if_true, transpose_apply, Matrix.sub_apply, of_apply, one_apply]
        congr 1
        exact if_congr eq_comm rfl rfl
    · rw [Fintype.sum_bool]
      simp
    · cases m
      · have := hsum i fun _ => 1 / (N : ℝ)
        simp only [Bool.false_eq_true, if_false, of_apply, zero_mul, sub_self, mul_zero, Finset.sum_const_zero]
      · have := hsum i fun j => (1 : Matrix (Fin N) (Fin N) ℝ) j k - 1 / (N : ℝ)
        simp only [if_true, Matrix.sub_apply, of_apply]
        rw [this]
        simp [Finset.sum_sub_distrib, one_apply, hN]
  rw [filter_resolution h hc hR hφ (fun m => by cases m <;> simp [h0, h1]) order x]
  congr 3
  funext v _ i
  simp only [Fintype.sum_bool, if_true, Bool.false_eq_true, if_false, Matrix.sub_apply, of_apply, one_apply]
  have : ∀ w, (φ i N * ((if v = w then 1 else 0) - 1 / (N : ℝ)) + φ i 0 * (1 / N)) * x w =
      φ i N * ((if v = w then x w else 0) - x w / N) + φ i 0 * (x w / N) := fun w => by
    split <;> ring
  simp only [this, Finset.sum_add_distrib, ← Finset.mul_sum, Finset.sum_sub_distrib, ← Finset.sum_div, Finset.sum_ite_eq, Finset.mem_univ, if_true]
  ring

theorem star_resolution {M : ℕ} (hM : 1 ≤ M) {lt : LapType} (hlt : lt = .combinatorial ∨ lt = .normalized) {g : Graph (M + 1) ℝ}
    (hg : star (M + 1) lt = .ok g) :
    Resolution (combLap g.W.dense)
      ![Matrix.of fun _ _ => 1 / ((M : ℝ) + 1), Matrix.of fun i k => if i = 0 ∨ k = 0 then 0 else (if i = k then 1 else 0) - 1 / (M : ℝ),
        Matrix.of fun i k => (if i = 0 then -(M : ℝ) else 1) * (if k = 0 then -(M : ℝ) else 1) / (M * (M + 1))]
      ![0, 1, (M : ℝ) + 1] := by
  obtain ⟨g', e, hb, -, hW⟩ := C71_star (N := M + 1) (by omega) hlt
  rw [hg] at e
  obtain rfl := Except.ok.inj e
  have hM0 : (M : ℝ) ≠ 0 := by exact_mod_cast (by omega : M ≠ 0)
  have hM1 : (M : ℝ) + 1 ≠ 0 := by positivity
  have hu : Undirected g.W.dense := fun i j => by
    rw [hW, hW]
    exact if_congr or_comm rfl rfl
  have hsum0 : ∀ x : Fin (M + 1) → ℝ, ∑ j, g.W.dense 0 j * (x 0 - x j) = ∑ j : Fin M, (x 0 - x j.succ) := by
    intro x
    rw [Fin.sum_univ_succ, sub_self, mul_zero, zero_add]
    refine Finset.sum_congr rfl fun j _ => ?_
    rw [hW, if_pos (.inl ⟨rfl, by simp⟩), one_mul]
  have hsum1 : ∀ (i : Fin M) (x : Fin (M + 1) → ℝ), ∑ j, g.W.dense i.succ j * (x i.succ - x j) = x i.succ - x 0 := by
    intro i x
    rw [Fin.sum_univ_succ, hW, if_pos (.inr ⟨rfl, by simp⟩), one_mul, Finset.sum_eq_zero, add_zero]
    intro j _
    rw [hW, if_neg (by simp), zero_mul]
  refine Resolution.ofModes hu (fun m => ?_) ?_ fun m k i => ?_
  · fin_cases m
    · ext i j; rfl
    · ext i j
      simp only [Fin.mk_one, cons_val_one, cons_val_zero, transpose_apply, of_apply]
      exact if_congr or_comm rfl (congrArg (· - 1 / (M : ℝ)) (if_congr eq_comm rfl rfl))
    · ext i j
      simp only [Fin.reduceFinMk, cons_val, transpose_apply, of_apply]
      ring
  · rw [Fin.sum_univ_three]
    ext i k
    simp only [cons_val_zero, cons_val_one, cons_val, Matrix.add_apply, of_apply, one_apply]
    refine Fin.cases ?_ (fun i => ?_) i <;> refine Fin.cases ?_ (fun k => ?_) k
    · simp
      field_simp
      ring
    · simp [(Fin.succ_ne_zero k).symm]
      field_simp
      ring
    · simp
      field_simp
      ring
    · simp
      field_simp
      ring
  · fin_cases m
    · simp
    · simp only [Fin.mk_one, cons_val_one, cons_val_zero, of_apply]
      refine Fin.cases ?_ (fun i => ?_) i
      · have := hsum0 fun j => if j = 0 ∨ k = 0 then 0 else (if j = k then 1 else 0) - 1 / (M : ℝ)
        rw [this]
        refine Fin.cases ?_ (fun k => ?_) k
        · simp
        · simp [hM0]
      · rw [hsum1 i fun j => if j = 0 ∨ k = 0 then 0 else (if j = k then 1 else 0) - 1 / (M : ℝ)]
        simp
    · simp only [Fin.reduceFinMk, cons_val, of_apply]
      refine Fin.cases ?_ (fun i => ?_) i
      · rw [hsum0 fun j => (if j = 0 then -(M : ℝ) else 1) * (if k = 0 then -(M : ℝ) else 1) / (M * (M + 1))]
        generalize (if k = 0 then -(M : ℝ) else 1) = t
        simp
        field_simp
        ring
      · rw [hsum1 i fun j => (if j = 0 then -(M : ℝ) else 1) * (if k = 0 then -(M : ℝ) else 1) / (M * (M + 1))]
        generalize (if k = 0 then -(M : ℝ) else 1) = t
        simp
        field_simp
        ring

/-- **C108** On a star with `M` leaves, filtering combines the average of the signal, the average of the leaves and the deviations of the leaves. -/
theorem C108_star {M : ℕ} (hM : 1 ≤ M) {lt : LapType} (hlt : lt = .combinatorial ∨ lt = .normalized) {g : Graph (M + 1) ℝ} (hg : star (M + 1) lt = .ok g)
    {S : Solvers (M + 1)} {s : GState (M + 1)} (h : Ready S g s) (hc : s.lapType = .combinatorial)
    (hφ : ∀ (k : ℕ) (x : Fin k → ℝ), 0 < k → (∀ j, x j ∈ A) → f.evaluate x = .ok fun i j => φ i (x j))
    (h0 : 0 ∈ A) (h1 : 1 ∈ A) (hN : (M : ℝ) + 1 ∈ A) (order : ℕ) (x : Fin (M + 1) → ℝ) {μ μL : ℝ}
    (hμ : μ = (∑ w, x w) / (M + 1)) (hμL : μL = (∑ w : Fin M, x w.succ) / M) :
    (f.filter S (Arr.of1 x) .exact order s).1 = .ok (Arr.of3 fun v (_ : Fin 1) i =>
      if v = 0 then φ i 0 * μ + φ i (M + 1) * (x 0 - μ)
      else φ i 0 * μ + φ i (M + 1) * (μL - μ) + φ i 1 * (x v - μL)).squeeze := by
  have hM0 : (M : ℝ) ≠ 0 := by exact_mod_cast (by omega : M ≠ 0)
  have hM1 : (M : ℝ) + 1 ≠ 0 := by positivity
  rw [filter_resolution h hc (star_resolution hM hlt hg) hφ (fun m => by fin_cases m <;> simp [h0, h1, hN]) order x]
  congr 3
  funext v _ i
  have hL : ∑ w : Fin M, x w.succ = M * μL := by rw [hμL]; field_simp
  have hμ' : (M + 1) * μ = x 0 + M * μL := by rw [hμ, Fin.sum_univ_succ, hL]; field_simp
  simp only [Fin.sum_univ_three, cons_val_zero, cons_val_one, cons_val, of_apply]
  rw [Fin.sum_univ_succ]
  obtain rfl : μ = (x 0 + M * μL) / (M + 1) := by rw [eq_div_iff hM1]; linarith
  refine Fin.cases ?_ (fun v => ?_) v
  · simp only [Fin.succ_ne_zero, if_true, if_false, true_or, mul_zero]
    rw [← Finset.mul_sum, hL]
    field_simp
    ring
  · simp only [Fin.succ_ne_zero, if_true, if_false, or_true, or_self, mul_zero, Fin.succ_inj]
    have : ∀ w : Fin M, (φ i 0 * (1 / ((M : ℝ) + 1)) + φ i 1 * ((if v = w then 1 else 0) - 1 / (M : ℝ)) + φ i (M + 1) * (1 * 1 / (M * (M + 1)))) * x w.succ =
        φ i 0 * (1 / ((M : ℝ) + 1)) * x w.succ + φ i 1 * (if v = w then x w.succ else 0) - φ i 1 * (1 / (M : ℝ)) * x w.succ
          + φ i (M + 1) * (1 * 1 / (M * (M + 1))) * x w.succ := fun w => by
      split <;> ring
    simp only [this, Finset.sum_add_distrib, Finset.sum_sub_distrib, ← Finset.mul_sum, hL, Finset.sum_ite_eq, Finset.mem_univ, if_true]
    field_simp
    ring

/-! ### separable filters -/

/-- Exact filtering with one kernel. -/
theorem filter_one {n : ℕ} {S : Solvers n} {g : Graph n ℝ} {s : GState n} (h : Ready S g s) (hn : 2 ≤ n) (hc : s.lapType = .combinatorial) {ι : Type} [Fintype ι]
    {P : ι → Matrix (Fin n) (Fin n) ℝ} {l : ι → ℝ} (hP : Resolution (combLap g.W.dense) P l) (ψ : ℝ → ℝ) (order : ℕ) (x : Fin n → ℝ) :
    ((Bank.ofArg (.one (Kernel.pointwise ψ))).filter S (Arr.of1 x) .exact order s).1 = .ok (Arr.of1 fun v => ∑ w, (∑ m, ψ (l m) * P m v w) * x w) := by
  obtain ⟨hist, hs⟩ := h.reached
  obtain ⟨e, U, he, -, -, hf⟩ := single_setup h.sound h.built hist hs h.nonneg hn h.known h.complete
  have hL := L_combinatorial h.sound h.built hist hs hc
  rw [hf _ _ rfl order x s (.inl rfl)]
  refine congrArg (fun t => Except.ok (Arr.of1 t)) ?_
  funext v
  rw [hL] at he
  rw [hP.spectral he Spectrum.combLap_symm]
  simp only [Matrix.mulVec, dotProduct, Matrix.sum_apply, Matrix.smul_apply, smul_eq_mul]

theorem separable {a b : ℕ} {ι κ : Type} [Fintype ι] [Fintype κ] (P : ι → Matrix (Fin a) (Fin a) ℝ) (Q : κ → Matrix (Fin b) (Fin b) ℝ) (f1 : ι → ℝ) (f2 : κ → ℝ)
    {ψ ψ1 ψ2 : ℝ → ℝ} (hψ : ∀ m m', ψ (f1 m + f2 m') = ψ1 (f1 m) * ψ2 (f2 m')) (x : Fin (a * b) → ℝ) (r : Fin a) (c : Fin b) :
    ∑ w : Fin (a * b), (∑ m : ι × κ, ψ (f1 m.1 + f2 m.2) * (P m.1 r w.divNat * Q m.2 c w.modNat)) * x w =
      ∑ c', (∑ m', ψ2 (f2 m') * Q m' c c') * ∑ r', (∑ m, ψ1 (f1 m) * P m r r') * x (cell r' c') := by
  rw [sum_cell, Finset.sum_comm]
  refine Finset.sum_congr rfl fun c' _ => ?_
  rw [Finset.mul_sum]
  refine Finset.sum_congr rfl fun r' _ => ?_
  rw [← mul_assoc]
  congr 1
  rw [Fintype.sum_prod_type, Finset.sum_mul_sum, Finset.sum_comm]
  refine Finset.sum_congr rfl fun m' _ => Finset.sum_congr rfl fun m _ => ?_
  rw [hψ, cell_div, cell_mod]
  ring

open Design

theorem heat_product {l l1 l2 a x y : ℝ} (hl : 0 < l) (hl1 : 0 < l1) (hl2 : 0 < l2) (ha : 0 ≤ a) (hx : 0 ≤ x) (hy : 0 ≤ y) :
    heatKernel l a (x + y) = heatKernel l1 (a * l1 / l) x * heatKernel l2 (a * l2 / l) y := by
  rw [heatKernel_eq (by positivity), heatKernel_eq (by positivity), heatKernel_eq (by positivity), ← Real.exp_add]
  congr 1
  field_simp
  ring

theorem ringFreq_nonneg (N k m : ℕ) : 0 ≤ ringFreq N k m :=
  Finset.sum_nonneg fun d _ => by linarith [Real.cos_le_one (2 * Real.pi * (d + 1 : ℕ) * m / N)]

theorem pathFreq_nonneg (N k : ℕ) : 0 ≤ pathFreq N k := by
  unfold pathFreq
  linarith [Real.cos_le_one (Real.pi * k / N)]

/-- **C108** The heat filter on a grid diffuses along the columns and then along the rows, with the heat filters of the two paths (the scale is relative to `lmax`). -/
theorem C108_heat_grid {N1 N2 : ℕ} (hN1 : 2 ≤ N1) (hN2 : 2 ≤ N2) {lt lt1 lt2 : LapType} (hlt : lt = .combinatorial ∨ lt = .normalized) {g : Graph (N1 * N2) ℝ}
    (hg : grid2d N1 N2 0 lt = .ok g) {S : Solvers (N1 * N2)} {s : GState (N1 * N2)} (h : Ready S g s) (hc : s.lapType = .combinatorial)
    {g1 : Graph N1 ℝ} (hg1 : path N1 false lt1 = .ok g1) {S1 : Solvers N1} {s1 : GState N1} (h1 : Ready S1 g1 s1) (hc1 : s1.lapType = .combinatorial)
    {g2 : Graph N2 ℝ} (hg2 : path N2 false lt2 = .ok g2) {S2 : Solvers N2} {s2 : GState N2} (h2 : Ready S2 g2 s2) (hc2 : s2.lapType = .combinatorial)
    {l l1 l2 a : ℝ} (hl : 0 < l) (hl1 : 0 < l1) (hl2 : 0 < l2) (ha : 0 ≤ a) (order : ℕ) (x : Fin (N1 * N2) → ℝ) :
    ∃ z y : Fin N1 → Fin N2 → ℝ,
      (∀ c, ((heat l1 [a * l1 / l] none).filter S1 (Arr.of1 fun r => x (cell r c)) .exact order s1).1 = .ok (Arr.of1 fun r => z r c)) ∧
      (∀ r, ((heat l2 [a * l2 / l] none).filter S2 (Arr.of1 (z r)) .exact order s2).1 = .ok (Arr.of1 (y r))) ∧
      ((heat l [a] none).filter S (Arr.of1 x) .exact order s).1 = .ok (Arr.of1 fun v => y v.divNat v.modNat) := by
  have hres : ∀ {N : ℕ} {lt : LapType} {g : Graph N ℝ} (_ : 0 < N) (_ : path N false lt = .ok g),
      Resolution (combLap g.W.dense) (fun k : Fin N => Matrix.of fun i j => dctVec N k i * dctVec N k j) fun k => pathFreq N k := by
    intro N lt g hN hg
    have hlt : lt = .combinatorial ∨ lt = .normalized := by
      rcases lt with _ | _ | name
      · exact .inl rfl
      · exact .inr rfl
      · rw [(C67_errors false (.other name) N name).2] at hg; cases hg
    obtain ⟨g', h1, -, -, hW⟩ := C67_weights hN false hlt
    rw [hg] at h1
    obtain rfl := Except.ok.inj h1
    exact path_resolution (fun i j => by rw [hW]; simp)
  have hn : 2 ≤ N1 * N2 := le_trans (by omega : 2 ≤ N1 * 1) (Nat.mul_le_mul_left _ (by omega))
  simp only [heat_one]
  refine ⟨_, _, fun c => filter_one h1 hN1 hc1 (hres (by omega) hg1) _ order _, fun r => filter_one h2 hN2 hc2 (hres (by omega) hg2) _ order _, ?_⟩
  rw [filter_one h hn hc (grid_resolution (by omega) hN2 hlt hg)]
  refine congrArg (fun t => Except.ok (Arr.of1 t)) ?_
  funext v
  exact separable (fun k : Fin N1 => Matrix.of fun i j => dctVec N1 k i * dctVec N1 k j) (fun k : Fin N2 => Matrix.of fun i j => dctVec N2 k i * dctVec N2 k j)
    (fun k => pathFreq N1 k) (fun k => pathFreq N2 k) (fun m m' => heat_product hl hl1 hl2 ha (pathFreq_nonneg _ _) (pathFreq_nonneg _ _)) x v.divNat v.modNat

/-- **C108** The heat filter on a torus diffuses along the circles of one direction and then along those of the other one, with the heat filters of the two rings. -/
theorem C108_heat_torus {Nv Mv : ℕ} (hN : 3 ≤ Nv) (hM : 3 ≤ Mv) {lt lt1 lt2 : LapType} (hlt : lt = .combinatorial ∨ lt = .normalized)
    (hlt1 : lt1 = .combinatorial ∨ lt1 = .normalized) (hlt2 : lt2 = .combinatorial ∨ lt2 = .normalized) {g : Graph (Mv * Nv) ℝ}
    (hg : torus Nv Mv lt = .ok g) {S : Solvers (Mv * Nv)} {s : GState (Mv * Nv)} (h : Ready S g s) (hc : s.lapType = .combinatorial)
    {g1 : Graph Mv ℝ} (hg1 : ring Mv 1 lt1 = .ok g1) {S1 : Solvers Mv} {s1 : GState Mv} (h1 : Ready S1 g1 s1) (hc1 : s1.lapType = .combinatorial)
    {g2 : Graph Nv ℝ} (hg2 : ring Nv 1 lt2 = .ok g2) {S2 : Solvers Nv} {s2 : GState Nv} (h2 : Ready S2 g2 s2) (hc2 : s2.lapType = .combinatorial)
    {l l1 l2 a : ℝ} (hl : 0 < l) (hl1 : 0 < l1) (hl2 : 0 < l2) (ha : 0 ≤ a) (order : ℕ) (x : Fin (Mv * Nv) → ℝ) :
    ∃ z y : Fin Mv → Fin Nv → ℝ,
      (∀ c, ((heat l1 [a * l1 / l] none).filter S1 (Arr.of1 fun r => x (cell r c)) .exact order s1).1 = .ok (Arr.of1 fun r => z r c)) ∧
      (∀ r, ((heat l2 [a * l2 / l] none).filter S2 (Arr.of1 (z r)) .exact order s2).1 = .ok (Arr.of1 (y r))) ∧
      ((heat l [a] none).filter S (Arr.of1 x) .exact order s).1 = .ok (Arr.of1 fun v => y v.divNat v.modNat) := by
  have hn : 2 ≤ Mv * Nv := le_trans (by omega : 2 ≤ Mv * 1) (Nat.mul_le_mul_left _ (by omega))
  simp only [heat_one]
  refine ⟨_, _, fun c => filter_one h1 (by omega) hc1 (ring_resolution hM (by omega) hlt1 hg1) _ order _,
    fun r => filter_one h2 (by omega) hc2 (ring_resolution hN (by omega) hlt2 hg2) _ order _, ?_⟩
  rw [filter_one h hn hc (torus_resolution (by omega) (by omega) hlt hg)]
  refine congrArg (fun t => Except.ok (Arr.of1 t)) ?_
  funext v
  exact separable (fun k : Fin Mv => waveP Mv k) (fun k : Fin Nv => waveP Nv k) (fun k => ringFreq Mv 1 k) (fun k => ringFreq Nv 1 k)
    (fun m m' => heat_product hl hl1 hl2 ha (ringFreq_nonneg _ _ _) (ringFreq_nonneg _ _ _)) x v.divNat v.modNat

/-- The hypotheses of C108 are met: freshly built `Ring(5, 2)`, `Torus(3, 4)`, `Path(4)`, `Grid2d(2, 3)`, `FullConnected(4)`, `Star(5)`. -/
example : (∃ (g : Graph 5 ℝ) (S : Solvers 5) (s : GState 5), ring 5 2 .combinatorial = .ok g ∧ Ready S g s ∧ s.lapType = .combinatorial) ∧
    (∃ (g : Graph (4 * 3) ℝ) (S : Solvers (4 * 3)) (s : GState (4 * 3)), torus 3 4 .combinatorial = .ok g ∧ Ready S g s ∧ s.lapType = .combinatorial) ∧
    (∃ (g : Graph 4 ℝ) (S : Solvers 4) (s : GState 4), path 4 false .combinatorial = .ok g ∧ Ready S g s ∧ s.lapType = .combinatorial) ∧
    (∃ (g : Graph (2 * 3) ℝ) (S : Solvers (2 * 3)) (s : GState (2 * 3)), grid2d 2 3 0 .combinatorial = .ok g ∧ Ready S g s ∧ s.lapType = .combinatorial) ∧
    (∃ (g : Graph 4 ℝ) (S : Solvers 4) (s : GState 4), fullConnected 4 .combinatorial = .ok g ∧ Ready S g s ∧ s.lapType = .combinatorial) ∧
    (∃ (g : Graph 5 ℝ) (S : Solvers 5) (s : GState 5), Gen.star 5 .combinatorial = .ok g ∧ Ready S g s ∧ s.lapType = .combinatorial) := by
  refine ⟨?_, ?_, ?_, ?_, ?_, ?_⟩
  · obtain ⟨g, h1, hb, h2, hW⟩ := C68_weights (N := 5) (k := 2) (by norm_num) (by norm_num) (.inl rfl)
    obtain ⟨S, s, r, hl, -⟩ := ready_ofGraph hb (fun i j => by rw [hW]; split <;> norm_num) (by norm_num) h2
    exact ⟨g, S, s, h1, r, hl⟩
  · obtain ⟨g, h1, hb, h2, hW⟩ := C69_weights (Nv := 3) (Mv := 4) (by norm_num) (by norm_num) (.inl rfl)
    obtain ⟨S, s, r, hl, -⟩ := ready_ofGraph hb (fun i j => by rw [hW]; unfold cycle; positivity) (by norm_num) h2
    exact ⟨g, S, s, h1, r, hl⟩
  · obtain ⟨g, h1, hb, h2, hW⟩ := C67_weights (N := 4) (by norm_num) false (.inl rfl)
    obtain ⟨S, s, r, hl, -⟩ := ready_ofGraph hb (fun i j => by rw [hW]; split <;> norm_num) (by norm_num) h2
    exact ⟨g, S, s, h1, r, hl⟩
  · obtain ⟨g, h1, hb, h2, hW⟩ := C70_weights (N1 := 2) (N2 := 3) (by norm_num) (by norm_num) 0 (.inl rfl)
    obtain ⟨S, s, r, hl, -⟩ := ready_ofGraph hb (fun i j => by rw [hW]; split <;> norm_num) (by norm_num) h2
    exact ⟨g, S, s, h1, r, hl⟩
  · obtain ⟨g, h1, hb, h2, hW, -⟩ := C72_full 4 (.inl rfl)
    obtain ⟨S, s, r, hl, -⟩ := ready_ofGraph hb (fun i j => by rw [hW]; split <;> norm_num) (by norm_num) h2
    exact ⟨g, S, s, h1, r, hl⟩
  · obtain ⟨g, h1, hb, h2, hW⟩ := C71_weights (N := 5) (k := 5 - 1) (by omega) (.inl rfl)
    obtain ⟨S, s, r, hl, -⟩ := ready_ofGraph hb (fun i j => by rw [hW]; split <;> norm_num) (by norm_num) h2
    exact ⟨g, S, s, by unfold Gen.star; rw [if_neg (by omega), h1], r, hl⟩

/-- The condition on the bank holds for all the filters given by functions. -/
example (ψ : ℝ → ℝ) : ∀ (k : ℕ) (x : Fin k → ℝ), 0 < k → (∀ j, x j ∈ (Set.univ : Set ℝ)) →
    (Bank.ofArg (.one (Kernel.pointwise ψ))).evaluate x = .ok fun _ j => ψ (x j) := fun k x _ _ =>
  Bank.IsPointwise.evaluate (g := fun _ => ψ) (fun i => by
    have hi : i = ⟨0, Nat.one_pos⟩ := Fin.ext (Nat.lt_one_iff.1 i.2)
    rw [hi]
    rfl) x

end PyGSP
