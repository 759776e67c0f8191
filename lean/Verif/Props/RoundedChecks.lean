import Verif.Props.RoundedFourier
import Verif.Props.LmaxBounds

/-!
# C144: the checks of `compute_fourier_basis` and `estimate_lmax` when the eigensolvers make rounding errors
-/

namespace PyGSP

open Matrix Spec Rounding GState

variable {n : ℕ}

namespace RoundedChecks

theorem stable_quad {ε : ℝ} {L U0 : Matrix (Fin n) (Fin n) ℝ} {e : Fin n → ℝ} (hε : √(∑ i, ∑ j, (U0 * Matrix.diagonal e * U0ᵀ - L) i j ^ 2) ≤ ε) (x : Fin n → ℝ) :
    |x ⬝ᵥ ((U0 * Matrix.diagonal e * U0ᵀ) *ᵥ x) - x ⬝ᵥ (L *ᵥ x)| ≤ ε * (x ⬝ᵥ x) := by
  set A := U0 * Matrix.diagonal e * U0ᵀ
  rw [← dotProduct_sub, ← Matrix.sub_mulVec]
  have hx : x ⬝ᵥ x = len x * len x := by
    unfold len
    rw [Real.mul_self_sqrt (Finset.sum_nonneg fun i _ => sq_nonneg _)]
    exact Finset.sum_congr rfl fun i _ => (sq _).symm
  have h1 : |x ⬝ᵥ ((A - L) *ᵥ x)| ≤ len x * len ((A - L) *ᵥ x) := by
    unfold len
    rw [← Real.sqrt_mul (Finset.sum_nonneg fun i _ => sq_nonneg _)]
    exact Real.abs_le_sqrt (Finset.sum_mul_sq_le_sq_mul_sq Finset.univ x _)
  have h2 := len_mulVec (A - L) x
  have h3 : 0 ≤ len x := Real.sqrt_nonneg _
  have h4 : √(frob (A - L)) ≤ ε := hε
  rw [hx]
  calc _ ≤ _ := h1
    _ ≤ len x * (ε * len x) := mul_le_mul_of_nonneg_left (h2.trans (mul_le_mul_of_nonneg_right h4 h3)) h3
    _ = _ := by ring

open Classical in
/-- what `compute_fourier_basis` does on a new graph, whatever the solver returns -/
theorem compute_eq (S : Solvers n) {g : Graph n ℝ} (hg : g.Built) (hn : 0 < n) {B : ℝ} (hB : g.upperBound = .ok (.fin B)) {e : Fin n → ℝ} {U : Matrix (Fin n) (Fin n) ℝ}
    (hS : S.eigh (ofGraph g).calls (ofGraph g).L = (e, U)) {e' : Fin n → ℝ} (he' : e' = Function.update e ⟨0, hn⟩ 0) :
    if |e ⟨0, hn⟩| < 1 / 10 ^ 5 ∧ e' ⟨n - 1, by omega⟩ ≤ B + 1 / 10 ^ 5 ∧ ∀ i, e' i ≤ e' ⟨n - 1, by omega⟩ then
      ((ofGraph g).computeFourierBasis S none).1 = .ok () ∧ ((ofGraph g).computeFourierBasis S none).2.basis = some ⟨n, e', U⟩ ∧
        ((ofGraph g).computeFourierBasis S none).2.lmax = some (.fin (e' ⟨n - 1, by omega⟩))
    else ((ofGraph g).computeFourierBasis S none).1 = .error .assertionError := by
  obtain ⟨hi, h1, h2, h3, h4, h5⟩ := ofGraph_inv (S := S) g hg
  have hcur : (ofGraph g).cur = g := by
    unfold cur; rw [h1, h2]
  set s := ofGraph g
  have key : s.computeFourierBasis S none = ({ s with basis := some ⟨n, e, U⟩, calls := s.calls + 1 } : GState n).checkBasis n ⟨n, e, U⟩ hn := by
    unfold computeFourierBasis
    simp only [Option.getD_none]
    rw [if_neg (by simp [hasBasis, h5])]
    unfold decompose
    rw [if_pos rfl, hS]
    dsimp only
    rw [dif_pos hn]
  rw [key]
  unfold checkBasis
  rw [signFix_eq]
  dsimp only
  rw [← he']
  set s1 : GState n := { s with basis := some ⟨n, e', U⟩, calls := s.calls + 1 }
  have hp : PureOK s1 := ⟨hi.2.1, hi.2.2, hi.2.3, hi.2.4, hi.2.5⟩
  obtain ⟨hu1, hu2⟩ := upperBound_spec hp
  have hcur1 : s1.cur = g := by rw [← hcur]; rfl
  rw [hcur1, hB] at hu1
  rw [hu1]
  dsimp only
  by_cases c1 : |e ⟨0, hn⟩| < 1 / 10 ^ 5
  · rw [if_pos (abs_lt.1 c1)]
    by_cases c2 : e' ⟨n - 1, by omega⟩ ≤ B + 1 / 10 ^ 5
    · have c2' : PyNum.le (.fin (e' ⟨n - 1, by omega⟩)) (PyNum.fin B + .fin (1 / 10 ^ 5)) = true := decide_eq_true c2
      rw [if_pos c2']
      by_cases c3 : ∀ i, e' i ≤ e' ⟨n - 1, by omega⟩
      · rw [if_pos ⟨c1, c2, c3⟩, if_pos c3, if_pos rfl]
        obtain ⟨c, hc1, -, -⟩ := npMax_abs hn hn U
        rw [hc1]
        exact ⟨rfl, hu2.basis, rfl⟩
      · rw [if_neg fun h => c3 h.2.2, if_neg c3]
    · have c2' : PyNum.le (.fin (e' ⟨n - 1, by omega⟩)) (PyNum.fin B + .fin (1 / 10 ^ 5)) = false := decide_eq_false c2
      rw [if_neg fun h => c2 h.2.1, if_neg (by rw [c2']; exact Bool.false_ne_true)]
  · rw [if_neg fun h => c1 h.1, if_neg fun h => c1 (abs_lt.2 h)]

end RoundedChecks

open RoundedChecks

/-- **C144** (Weyl) When the eigendecomposition is backward stable, each computed eigenvalue is within `ε` of the exact one of the same rank. -/
theorem C144_values {ε δ : ℝ} {L U U' : Matrix (Fin n) (Fin n) ℝ} {e e' : Fin n → ℝ} (h : IsEigenPairs L e U) (hm : Monotone e) (hs : Stable ε δ L e' U') (hm' : Monotone e')
    (k : Fin n) : |e' k - e k| ≤ ε := by
  obtain ⟨-, -, U0, h0, hε, -⟩ := hs
  have hp : IsEigenPairs (U0 * Matrix.diagonal e' * U0ᵀ) e' U0 := ⟨h0, by rw [Matrix.mul_assoc, h0, Matrix.mul_one]⟩
  have hq := stable_quad hε
  rw [abs_le]
  constructor
  · have := Weyl.le_of_quad_le h (shift_pairs hp ε) hm (fun a b hab => add_le_add_left (hm' hab) _) (fun x => ?_) k
    · linarith
    · have := (abs_le.1 (hq x)).1
      rw [Matrix.add_mulVec, Matrix.smul_mulVec, Matrix.one_mulVec, dotProduct_add, dotProduct_smul, smul_eq_mul]
      linarith
  · have := Weyl.le_of_quad_le hp (shift_pairs h ε) hm' (fun a b hab => add_le_add_left (hm hab) _) (fun x => ?_) k
    · linarith
    · have := (abs_le.1 (hq x)).2
      rw [Matrix.add_mulVec, Matrix.smul_mulVec, Matrix.one_mulVec, dotProduct_add, dotProduct_smul, smul_eq_mul]
      linarith

namespace RoundedChecks

theorem diag_rotate {U0 : Matrix (Fin n) (Fin n) ℝ} (h0 : U0ᵀ * U0 = 1) (d : Fin n → ℝ) : frob (U0 * Matrix.diagonal d * U0ᵀ) = ∑ i, d i ^ 2 := by
  have hT : U0ᵀᵀ * U0ᵀ = 1 := by rw [Matrix.transpose_transpose]; exact mul_eq_one_comm.1 h0
  have := frob_rotate hT hT (Matrix.diagonal d)
  rw [Matrix.transpose_transpose] at this
  rw [this]
  unfold frob
  refine Finset.sum_congr rfl fun i _ => ?_
  rw [Finset.sum_eq_single i (fun j _ hj => by rw [Matrix.diagonal_apply_ne' _ hj]; ring) (by simp), Matrix.diagonal_apply_eq]

theorem eq_rotate {L U : Matrix (Fin n) (Fin n) ℝ} {e : Fin n → ℝ} (h : IsEigenPairs L e U) : U * Matrix.diagonal e * Uᵀ = L := by
  rw [← h.eig, Matrix.mul_assoc, mul_eq_one_comm.1 h.orthonormal, Matrix.mul_one]

/-- changing the values by `d` adds `|d|` to the error -/
theorem stable_change {ε δ : ℝ} {L U : Matrix (Fin n) (Fin n) ℝ} {e e' : Fin n → ℝ} (h : Stable ε δ L e U) {η : ℝ} (hη : √(∑ i, (e' i - e i) ^ 2) ≤ η) : Stable (ε + η) δ L e' U := by
  obtain ⟨h1, h2, U0, h0, h3, h4⟩ := h
  refine ⟨add_nonneg h1 ((Real.sqrt_nonneg _).trans hη), h2, U0, h0, ?_, h4⟩
  have hd : U0 * Matrix.diagonal e' * U0ᵀ - L = (U0 * Matrix.diagonal e * U0ᵀ - L) + U0 * Matrix.diagonal (fun i => e' i - e i) * U0ᵀ := by
    have : Matrix.diagonal (fun i => e' i - e i) = Matrix.diagonal e' - Matrix.diagonal e := (Matrix.diagonal_sub e' e).symm
    rw [this, Matrix.mul_sub, Matrix.sub_mul]
    abel
  have := sqrt_frob_add (U0 * Matrix.diagonal e * U0ᵀ - L) (U0 * Matrix.diagonal (fun i => e' i - e i) * U0ᵀ)
  rw [← hd, diag_rotate h0] at this
  exact this.trans (add_le_add h3 hη)

theorem stable_exact {L U : Matrix (Fin n) (Fin n) ℝ} {e : Fin n → ℝ} (h : IsEigenPairs L e U) : Stable 0 0 L e U := by
  refine ⟨le_rfl, le_rfl, U, h.orthonormal, ?_, ?_⟩
  · rw [eq_rotate h, sub_self]; simp
  · rw [sub_self]; simp

end RoundedChecks

namespace RoundedChecks

theorem fresh {g : Graph n ℝ} (hg : g.Built) (hW : NonnegW g.W.dense) (hn : 0 < n) :
    (∀ i j, (ofGraph g).L i j = (ofGraph g).L j i) ∧ laplacian g.W g.lapType = .ok (ofGraph g).L ∧
    (∃ B, g.upperBound = .ok (.fin B) ∧ ∀ l, IsEigenvalue (ofGraph g).L l → l ≤ B) ∧ PSD (ofGraph g).L ∧
    ∀ {e : Fin n → ℝ} {U : Matrix (Fin n) (Fin n) ℝ}, IsEigenPairs (ofGraph g).L e U → Monotone e → e ⟨0, hn⟩ = 0 := by
  obtain ⟨S, hS, -⟩ := exists_sound n
  obtain ⟨hi, h1, h2, -⟩ := ofGraph_inv (S := S) g hg
  have hW1 : (ofGraph g).W = g.W := congrArg Graph.W h1
  have hW' : NonnegW (ofGraph g).W.dense := by rw [hW1]; exact hW
  obtain ⟨B, L, hB, hL, hle⟩ := C15_upper_bound g hg hW hn
  have hLL : L = (ofGraph g).L := by
    obtain ⟨lt, h3, h4, h5⟩ := hi.lap
    have hk : Known (ofGraph g).lapType := by rw [h2]; exact hg.lapType_known
    rw [hW1, h5 hk, h2, hL] at h4
    exact Except.ok.inj h4
  rw [hLL] at hL hle
  refine ⟨hi.L_symm, hL, ⟨B, hB, hle⟩, hi.psd hW', fun h hm => first_eig_zero (hi.psd hW') (hi.zero hW' hn) h hm (fun _ => ?_) hn⟩
  obtain ⟨j, hj⟩ := h.complete hi.L_symm (hi.zero hW' hn)
  exact ⟨j, fun l _ => by rw [hj, abs_zero]; exact abs_nonneg _⟩

end RoundedChecks

/-- **C144** `compute_fourier_basis()` on a new graph with non-negative weights, when the eigensolver is backward stable with an error `ε` below `1e-5` (and not above the largest
frequency): the assertions do not fire, the stored frequencies are within `ε` of the exact ones, the first one being exactly zero, `lmax` is the last one and the largest, and the
stored decomposition is backward stable with twice the error, which is what `C143_filter` assumes. -/
theorem C144_basis (S : Solvers n) {g : Graph n ℝ} (hg : g.Built) (hW : NonnegW g.W.dense) (hn : 0 < n) {ε δ : ℝ}
    (hS : ∀ t, Monotone (S.eigh t (ofGraph g).L).1 ∧ Stable ε δ (ofGraph g).L (S.eigh t (ofGraph g).L).1 (S.eigh t (ofGraph g).L).2) (hε : ε < 1 / 10 ^ 5)
    {e : Fin n → ℝ} {U : Matrix (Fin n) (Fin n) ℝ} (h : IsEigenPairs (ofGraph g).L e U) (hm : Monotone e) (hmax : n = 1 ∨ ε ≤ e ⟨n - 1, by omega⟩) :
    ∃ (e' : Fin n → ℝ) (U' : Matrix (Fin n) (Fin n) ℝ), ((ofGraph g).computeFourierBasis S none).1 = .ok () ∧
      ((ofGraph g).computeFourierBasis S none).2.basis = some ⟨n, e', U'⟩ ∧ ((ofGraph g).computeFourierBasis S none).2.lmax = some (.fin (e' ⟨n - 1, by omega⟩)) ∧
      e' ⟨0, hn⟩ = 0 ∧ (∀ k, |e' k - e k| ≤ ε) ∧ (∀ k, e' k ≤ e' ⟨n - 1, by omega⟩) ∧ Stable (2 * ε) δ (ofGraph g).L e' U' := by
  obtain ⟨-, -, ⟨B, hB, hle⟩, -, hzero⟩ := fresh hg hW hn
  have he0 := hzero h hm
  obtain ⟨m1, m2⟩ := hS (ofGraph g).calls
  set e1 := (S.eigh (ofGraph g).calls (ofGraph g).L).1
  have hv := C144_values h hm m2 m1
  have hz : |e1 ⟨0, hn⟩| ≤ ε := by have := hv ⟨0, hn⟩; rwa [he0, sub_zero] at this
  have hc := compute_eq S hg hn hB (e := e1) (U := (S.eigh (ofGraph g).calls (ofGraph g).L).2) rfl rfl
  set e' := Function.update e1 ⟨0, hn⟩ 0 with he'
  have a0 : e' ⟨0, hn⟩ = 0 := by simp [he']
  have a1 : ∀ k, k ≠ ⟨0, hn⟩ → e' k = e1 k := fun k hk => by simp [he', hk]
  have a2 : ∀ k, |e' k - e k| ≤ ε := fun k => by
    by_cases hk : k = ⟨0, hn⟩
    · rw [hk, a0, he0, sub_zero, abs_zero]; exact m2.1
    · rw [a1 k hk]; exact hv k
  have a3 : ∀ k, e' k ≤ e' ⟨n - 1, by omega⟩ := fun k => by
    rcases hmax with h1 | h1
    · have : k = ⟨n - 1, by omega⟩ := Fin.ext (by simp; omega)
      rw [← this]
    · by_cases hl : (⟨n - 1, by omega⟩ : Fin n) = ⟨0, hn⟩
      · have : k = ⟨n - 1, by omega⟩ := Fin.ext (by simp [Fin.ext_iff] at hl ⊢; omega)
        rw [← this]
      · rw [a1 _ hl]
        by_cases hk : k = ⟨0, hn⟩
        · rw [hk, a0]
          have := (abs_le.1 (hv ⟨n - 1, by omega⟩)).1
          linarith
        · rw [a1 k hk]
          exact m1 (by simp only [Fin.le_def]; omega)
  rw [if_pos ⟨lt_of_le_of_lt hz hε, by
    have := (abs_le.1 (a2 ⟨n - 1, by omega⟩)).2
    have := hle _ (h.isEigenvalue ⟨n - 1, by omega⟩)
    linarith, a3⟩] at hc
  refine ⟨e', _, hc.1, hc.2.1, hc.2.2, a0, a2, a3, ?_⟩
  rw [two_mul]
  refine stable_change m2 ?_
  have : ∑ i, (e' i - e1 i) ^ 2 = e1 ⟨0, hn⟩ ^ 2 := by
    rw [Finset.sum_eq_single ⟨0, hn⟩ (fun k _ hk => by rw [a1 k hk]; ring) (by simp), a0]
    ring
  rw [this, Real.sqrt_sq_eq_abs]
  exact hz

namespace Spec

/-- The documented accuracy of LAPACK's symmetric eigensolvers: ascending eigenvalues and eigenvectors of a matrix that differs from the given one by a relative error `u` (Frobenius
norm), the vectors being within `u` of orthonormal ones.  The exact decomposition is an instance. -/
def RelStable (u : ℝ) (S : Solvers n) : Prop :=
  ∀ t (L : Matrix (Fin n) (Fin n) ℝ), (∀ i j, L i j = L j i) → Monotone (S.eigh t L).1 ∧ Stable (u * √(∑ i, ∑ j, L i j ^ 2)) u L (S.eigh t L).1 (S.eigh t L).2

end Spec

namespace RoundedChecks

/-- a solver all of whose eigenvalues are off by `c` times the norm divided by `√n` -/
noncomputable def shifted (S : Solvers n) (c : ℝ) : Solvers n where
  eigh t L := (fun j => (S.eigh t L).1 j + c * (√(∑ i, ∑ j, L i j ^ 2) / √n), (S.eigh t L).2)
  eigshSM := S.eigshSM
  eigshLM := S.eigshLM

theorem shifted_rel {S : Solvers n} (hS : Sound S) (hn : 0 < n) {c u : ℝ} (hc : |c| ≤ u) : RelStable u (shifted S c) := by
  intro t L hL
  obtain ⟨h1, h2⟩ := hS.eigh t L hL
  refine ⟨fun a b hab => add_le_add_left (h2 hab) _, ?_⟩
  have hu : 0 ≤ u := (abs_nonneg c).trans hc
  have hN : 0 ≤ √(∑ i, ∑ j, L i j ^ 2) := Real.sqrt_nonneg _
  have hn0 : 0 < √(n : ℝ) := Real.sqrt_pos.2 (by exact_mod_cast hn)
  have h3 := stable_change (stable_exact h1) (e' := ((shifted S c).eigh t L).1) (η := u * √(∑ i, ∑ j, L i j ^ 2)) (by
    have : ∑ i, (((shifted S c).eigh t L).1 i - (S.eigh t L).1 i) ^ 2 = (|c| * √(∑ i, ∑ j, L i j ^ 2)) ^ 2 := by
      simp only [shifted, add_sub_cancel_left, Finset.sum_const, Finset.card_univ, Fintype.card_fin, nsmul_eq_mul]
      rw [mul_pow, mul_pow, div_pow, Real.sq_sqrt (Nat.cast_nonneg n), sq_abs]
      have : (n : ℝ) ≠ 0 := by exact_mod_cast hn.ne'
      field_simp
    rw [this, Real.sqrt_sq (mul_nonneg (abs_nonneg c) hN)]
    exact mul_le_mul_of_nonneg_right hc hN)
  rw [zero_add] at h3
  obtain ⟨b1, b2, U0, b3, b4, b5⟩ := h3
  exact ⟨b1, hu, U0, b3, b4, b5.trans hu⟩

/-- one edge -/
def edge (w : ℝ) : Matrix (Fin 2) (Fin 2) ℝ := !![0, w; w, 0]

theorem edge_lap (w : ℝ) : combLap (edge w) = !![w, -w; -w, w] := by
  ext i j
  fin_cases i <;> fin_cases j <;> simp [combLap, wdeg, wsym, edge] <;> ring

theorem edge_norm {w : ℝ} (hw : 0 ≤ w) : √(∑ i, ∑ j, combLap (edge w) i j ^ 2) = 2 * w := by
  rw [edge_lap]
  have : ∑ i, ∑ j, (!![w, -w; -w, w] : Matrix (Fin 2) (Fin 2) ℝ) i j ^ 2 = (2 * w) ^ 2 := by
    simp [Fin.sum_univ_two]; ring
  rw [this, Real.sqrt_sq (by positivity)]

theorem exists_edge {w : ℝ} (hw : 0 < w) : ∃ g : Graph 2 ℝ, g.Built ∧ g.W.dense = edge w ∧ g.lapType = .combinatorial ∧ NonnegW g.W.dense ∧ Connected g.W.dense ∧
    (ofGraph g).L = combLap (edge w) ∧ IsGreatest {l | IsEigenvalue (ofGraph g).L l} (2 * w) ∧ g.upperBound = .ok (.fin (2 * w)) := by
  obtain ⟨g, hg, hd, hl⟩ := Graph.exists_built (K := ℝ) (edge w)
  have hW : NonnegW g.W.dense := by
    rw [hd]; intro i j; fin_cases i <;> fin_cases j <;> simp [edge, hw.le]
  obtain ⟨S, hS, -⟩ := exists_sound 2
  obtain ⟨hi, h1, h2, -⟩ := ofGraph_inv (S := S) g hg
  have hL : (ofGraph g).L = combLap (edge w) := by
    obtain ⟨lt, h3, h4, h5⟩ := hi.lap
    have : (ofGraph g).W = g.W := congrArg Graph.W h1
    have hk : Known (ofGraph g).lapType := by rw [h2]; exact hg.lapType_known
    rw [this, h5 hk, h2, hl, laplacian_comb, hd] at h4
    exact (Except.ok.inj h4).symm
  obtain ⟨B, w', d', b1, b2, b3, b4⟩ := C109_value g hg hl hW (by norm_num)
  have hd' : d' = w := by
    obtain ⟨⟨i, hi⟩, -⟩ := b3
    rw [hi, hd]
    fin_cases i <;> simp [wdeg, wsym, edge]
  have hw' : w' = w := by
    refine le_antisymm ?_ (b2.2 ⟨0, 1, by rw [hd]; rfl⟩)
    obtain ⟨⟨i, j, hi⟩, -⟩ := b2
    rw [hi, hd]
    fin_cases i <;> fin_cases j <;> simp [edge, hw.le]
  have heig : IsEigenvalue (combLap (edge w)) (2 * w) := by
    rw [edge_lap]
    refine ⟨![1, -1], ?_, ?_⟩
    · intro h; have := congrFun h 0; simp at this
    · ext i; fin_cases i <;> simp [Matrix.mulVec, dotProduct, Fin.sum_univ_two] <;> ring
  have hB : B = 2 * w := by
    refine le_antisymm ?_ ?_
    · have := b4.2 (Or.inr (Or.inl rfl))
      rwa [hd'] at this
    · obtain ⟨B', L', c1, c2, c3⟩ := C15_upper_bound g hg hW (by norm_num)
      rw [hl, laplacian_comb, hd] at c2
      rw [← Except.ok.inj c2] at c3
      rw [b1] at c1
      cases c1
      exact c3 _ heig
  refine ⟨g, hg, hd, hl, hW, ?_, hL, ⟨by rw [hL]; exact heig, fun l hl' => ?_⟩, by rw [b1, hB]⟩
  · rw [hd]
    have h01 : Linked (edge w) 0 1 := .single (.inl (by simp [edge, hw.ne']))
    have h10 : Linked (edge w) 1 0 := .single (.inl (by simp [edge, hw.ne']))
    intro i j
    fin_cases i <;> fin_cases j
    exacts [.refl, h01, h10, .refl]
  · obtain ⟨B', L', c1, c2, c3⟩ := C15_upper_bound g hg hW (by norm_num)
    rw [hl, laplacian_comb, hd] at c2
    rw [← Except.ok.inj c2] at c3
    rw [b1] at c1
    cases c1
    rw [← hB]
    rw [hL] at hl'
    exact c3 _ hl'

end RoundedChecks

/-- **C144** FINDING: the assertion on the first frequency uses an absolute tolerance.  Whatever the relative accuracy of the eigensolver (even one unit roundoff), there is a connected graph
(one edge with a large weight) on which `compute_fourier_basis()` may raise AssertionError; with the weights divided by a constant it would not (`C144_basis`). -/
theorem C144_scale_violated {u : ℝ} (hu : 0 < u) : ∃ g : Graph 2 ℝ, g.Built ∧ NonnegW g.W.dense ∧ Connected g.W.dense ∧ ∃ S : Solvers 2, RelStable u S ∧
    ((ofGraph g).computeFourierBasis S none).1 = .error .assertionError := by
  obtain ⟨g, hg, hd, hl, hW, hc, hL, -, hB⟩ := exists_edge (w := 1 / 10 ^ 5 / u) (by positivity)
  obtain ⟨S, hS, -⟩ := exists_sound 2
  obtain ⟨hsym, -, -, -, hzero⟩ := fresh hg hW (by norm_num)
  refine ⟨g, hg, hW, hc, shifted S u, shifted_rel hS (by norm_num) (by rw [abs_of_pos hu]), ?_⟩
  have h := compute_eq (shifted S u) hg (by norm_num) hB (e := ((shifted S u).eigh (ofGraph g).calls (ofGraph g).L).1) (U := ((shifted S u).eigh (ofGraph g).calls (ofGraph g).L).2) rfl rfl
  rw [if_neg] at h
  · exact h
  · rintro ⟨h1, -, -⟩
    obtain ⟨p1, p2⟩ := hS.eigh (ofGraph g).calls (ofGraph g).L hsym
    have h0 := hzero p1 p2
    have h2 : ((shifted S u).eigh (ofGraph g).calls (ofGraph g).L).1 ⟨0, by norm_num⟩ = √2 / 10 ^ 5 := by
      have hN := edge_norm (w := 1 / 10 ^ 5 / u) (by positivity)
      rw [← hL] at hN
      simp only [shifted]
      rw [h0, hN]
      have h3 : √(2 : ℝ) * √2 = 2 := Real.mul_self_sqrt (by norm_num)
      have h4 : √(2 : ℝ) ≠ 0 := by positivity
      push_cast
      field_simp
      nlinarith
    rw [h2, abs_of_pos (by positivity)] at h1
    have h5 : (1 : ℝ) ≤ √2 := Real.one_le_sqrt.2 (by norm_num)
    have : (1 : ℝ) / 10 ^ 5 ≤ √2 / 10 ^ 5 := div_le_div_of_nonneg_right h5 (by positivity)
    linarith

/-- **C144** FINDING: only the first frequency is set to zero.  On every graph that is not connected (and has an edge), and whatever the accuracy of the eigensolver, the second
frequency may be negative after `compute_fourier_basis()` returned normally: `e` is then not sorted, and the response of `Wave` at it is NaN (`arccos` of a number above 1). -/
theorem C144_negative_violated {g : Graph n ℝ} (hg : g.Built) (hW : NonnegW g.W.dense) (hn : 1 < n) (hdis : ¬ Connected g.W.dense) (hL : (ofGraph g).L ≠ 0) {u : ℝ} (hu : 0 < u)
    (hu1 : u < 1) (hsmall : u * √(∑ i, ∑ j, (ofGraph g).L i j ^ 2) < 1 / 10 ^ 5) :
    ∃ (S : Solvers n) (e : Fin n → ℝ) (U : Matrix (Fin n) (Fin n) ℝ) (lmax : ℝ), RelStable u S ∧ ((ofGraph g).computeFourierBasis S none).1 = .ok () ∧
      ((ofGraph g).computeFourierBasis S none).2.basis = some ⟨n, e, U⟩ ∧ ((ofGraph g).computeFourierBasis S none).2.lmax = some (.fin lmax) ∧ 0 < lmax ∧
      e ⟨0, by omega⟩ = 0 ∧ e ⟨1, hn⟩ < 0 ∧ ∀ time speed, speed ≠ 0 → Design.waveKernel lmax time speed (e ⟨1, hn⟩) = none := by
  obtain ⟨S, hS, -⟩ := exists_sound n
  have hn0 : 0 < n := by omega
  obtain ⟨hsym, hlap, -, hpsd, hzero⟩ := fresh hg hW hn0
  obtain ⟨p1, p2⟩ := hS.eigh (ofGraph g).calls (ofGraph g).L hsym
  set e := (S.eigh (ofGraph g).calls (ofGraph g).L).1 with he
  have h0 := hzero p1 p2
  have hnn : ∀ k, 0 ≤ e k := fun k => eig_nonneg hpsd (p1.isEigenvalue k)
  set N := √(∑ i, ∑ j, (ofGraph g).L i j ^ 2) with hNdef
  have hsq : ∑ i, ∑ j, (ofGraph g).L i j ^ 2 = ∑ i, e i ^ 2 := by
    have := diag_rotate p1.orthonormal e
    rw [eq_rotate p1] at this
    exact this
  have hNpos : 0 < N := by
    refine Real.sqrt_pos.2 (lt_of_le_of_ne (Finset.sum_nonneg fun i _ => Finset.sum_nonneg fun j _ => sq_nonneg _) fun h => hL ?_)
    ext i j
    have h1 := (Finset.sum_eq_zero_iff_of_nonneg fun i _ => Finset.sum_nonneg fun j _ => sq_nonneg _).1 h.symm i (Finset.mem_univ _)
    have h2 := (Finset.sum_eq_zero_iff_of_nonneg fun j _ => sq_nonneg _).1 h1 j (Finset.mem_univ _)
    exact pow_eq_zero_iff (two_ne_zero) |>.1 h2
  have hs0 : 0 < √(n : ℝ) := Real.sqrt_pos.2 (by exact_mod_cast hn0)
  set last : Fin n := ⟨n - 1, by omega⟩
  have hmean : N / √n ≤ e last := by
    rw [div_le_iff₀ hs0, hNdef, hsq, ← Real.sqrt_sq (mul_nonneg (hnn last) hs0.le), mul_pow, Real.sq_sqrt (Nat.cast_nonneg n)]
    refine Real.sqrt_le_sqrt ?_
    calc ∑ i, e i ^ 2 ≤ ∑ _i : Fin n, e last ^ 2 := Finset.sum_le_sum fun i _ => pow_le_pow_left₀ (hnn i) (p2 (by simp only [last, Fin.le_def]; omega)) 2
      _ = _ := by simp; ring
  have he1 : e ⟨1, hn⟩ = 0 := by
    have hcard := card_zero_eig hW hlap p1
    have h2 : 1 < Nat.card (Quot (Arc g.W.dense)) := by
      unfold Connected at hdis
      push Not at hdis
      obtain ⟨i, j, hij⟩ := hdis
      rw [Finite.one_lt_card_iff_nontrivial]
      refine ⟨Quot.mk _ i, Quot.mk _ j, fun h => hij ?_⟩
      have key : ∀ a b, Relation.EqvGen (Arc g.W.dense) a b → Linked g.W.dense a b := by
        intro a b hab
        induction hab with
        | rel x y hxy => exact .single (.inl hxy)
        | refl x => exact .refl
        | symm x y _ ih => exact Linked.symm ih
        | trans x y z _ _ ih1 ih2 => exact ih1.trans ih2
      exact key i j (Quot.eqvGen_exact h)
    by_contra hne
    have hpos : 0 < e ⟨1, hn⟩ := lt_of_le_of_ne (hnn _) (Ne.symm hne)
    have : (Finset.univ.filter fun j => e j = 0) ⊆ {⟨0, hn0⟩} := by
      intro j hj
      rw [Finset.mem_filter] at hj
      rw [Finset.mem_singleton]
      by_contra hj0
      have : e ⟨1, hn⟩ ≤ e j := p2 (by
        simp only [Fin.le_def]
        have : j.1 ≠ 0 := fun h => hj0 (Fin.ext h)
        omega)
      linarith [hj.2]
    have := Finset.card_le_card this
    rw [Finset.card_singleton] at this
    omega
  set c := u * (N / √n) with hcdef
  have hc0 : 0 < c := by positivity
  have hcl : c < e last := by
    have : 0 < N / √n := by positivity
    nlinarith
  have hrel := shifted_rel hS hn0 (c := -u) (u := u) (by rw [abs_neg, abs_of_pos hu])
  obtain ⟨B, hB, hle⟩ := (fresh hg hW hn0).2.2.1
  have hv : ∀ k, ((shifted S (-u)).eigh (ofGraph g).calls (ofGraph g).L).1 k = e k - c := fun k => by
    simp only [shifted, hcdef]
    rw [← hNdef]
    ring
  have hq := compute_eq (shifted S (-u)) hg hn0 hB (e := ((shifted S (-u)).eigh (ofGraph g).calls (ofGraph g).L).1)
    (U := ((shifted S (-u)).eigh (ofGraph g).calls (ofGraph g).L).2) rfl rfl
  set e' := Function.update ((shifted S (-u)).eigh (ofGraph g).calls (ofGraph g).L).1 ⟨0, hn0⟩ 0 with he'
  have a0 : e' ⟨0, hn0⟩ = 0 := by simp [he']
  have a1 : ∀ k, k ≠ ⟨0, hn0⟩ → e' k = e k - c := fun k hk => by rw [← hv k]; simp [he', hk]
  have al : e' last = e last - c := a1 _ (by simp [last, Fin.ext_iff]; omega)
  have a2 : e' ⟨1, hn⟩ = -c := by rw [a1 _ (by simp [Fin.ext_iff]), he1]; ring
  have hNc : c ≤ u * N := by
    refine mul_le_mul_of_nonneg_left (div_le_self hNpos.le ?_) hu.le
    exact Real.one_le_sqrt.2 (by exact_mod_cast hn0)
  rw [if_pos] at hq
  · refine ⟨_, e', _, e' last, hrel, hq.1, hq.2.1, hq.2.2, by rw [al]; linarith, a0, by rw [a2]; linarith, fun time speed hsp => ?_⟩
    unfold Design.waveKernel
    dsimp only
    rw [if_neg]
    rintro ⟨-, h1⟩
    rw [a2, al] at h1
    have : 0 < speed ^ 2 * c / (e last - c) / 2 := by
      have : 0 < e last - c := by linarith
      positivity
    have e3 : speed ^ 2 * -c / (e last - c) / 2 = -(speed ^ 2 * c / (e last - c) / 2) := by ring
    rw [e3] at h1
    linarith
  · refine ⟨?_, ?_, fun i => ?_⟩
    · rw [hv, h0, zero_sub, abs_neg, abs_of_pos hc0]
      linarith
    · change e' last ≤ _
      rw [al]
      have := hle _ (p1.isEigenvalue last)
      have : (0 : ℝ) < 1 / 10 ^ 5 := by positivity
      linarith
    · change e' i ≤ e' last
      by_cases hi : i = ⟨0, hn0⟩
      · rw [hi, a0, al]; linarith
      · rw [a1 i hi, al]
        have : e i ≤ e last := p2 (by simp only [last, Fin.le_def]; omega)
        linarith


namespace RoundedChecks

/-- what `estimate_lmax()` does on a new graph, whatever the value that ARPACK returns -/
theorem estimate_eq (S : Solvers n) {g : Graph n ℝ} (hg : g.Built) (hn : 2 ≤ n) {B r : ℝ} (hB : g.upperBound = .ok (.fin B)) (hr : S.eigshLM (ofGraph g).calls (ofGraph g).L = some r) :
    (r ≤ B + 1 / 10 ^ 12 → ((ofGraph g).estimateLmax S .lanczos).1 = .ok () ∧ ((ofGraph g).estimateLmax S .lanczos).2.lmax = some (.fin (r * (101 / 100)))) ∧
    (¬ r ≤ B + 1 / 10 ^ 12 → ((ofGraph g).estimateLmax S .lanczos).1 = .error .assertionError ∧ ((ofGraph g).estimateLmax S .lanczos).2.lmax = none ∧
      ((ofGraph g).estimateLmax S .lanczos).2.lmaxMethod = some .lanczos) := by
  obtain ⟨hi, h1, h2, h3, h4, h5⟩ := ofGraph_inv (S := S) g hg
  have hcur : (ofGraph g).cur = g := by
    unfold cur; rw [h1, h2]
  set s := ofGraph g
  unfold estimateLmax
  rw [if_neg (by rw [h4]; simp)]
  dsimp only
  rw [if_neg (by omega), hr]
  dsimp only
  set s1 : GState n := { s with lmaxMethod := some .lanczos, calls := s.calls + 1 }
  have hp : PureOK s1 := ⟨hi.2.1, hi.2.2, hi.2.3, hi.2.4, hi.2.5⟩
  obtain ⟨hu1, hu2⟩ := upperBound_spec hp
  have hcur1 : s1.cur = g := by rw [← hcur]; rfl
  rw [hcur1, hB] at hu1
  rw [hu1]
  dsimp only
  constructor
  · intro h
    have c : PyNum.le (.fin r) (PyNum.fin B + .fin (1 / 10 ^ 12)) = true := decide_eq_true h
    rw [if_pos c]
    exact ⟨rfl, rfl⟩
  · intro h
    have c : PyNum.le (.fin r) (PyNum.fin B + .fin (1 / 10 ^ 12)) = false := decide_eq_false h
    rw [if_neg (by rw [c]; exact Bool.false_ne_true)]
    exact ⟨rfl, hu2.lmax.trans h3, hu2.lmaxMethod⟩

end RoundedChecks

/-- **C144** `estimate_lmax()` on a new graph with non-negative weights: it succeeds when the value that ARPACK computes exceeds the largest frequency by at most `1e-12`; `lmax` is then
that value plus 1%, hence at least every frequency when the value is not more than 0.99% too small. -/
theorem C144_lmax (S : Solvers n) {g : Graph n ℝ} (hg : g.Built) (hW : NonnegW g.W.dense) (hn : 2 ≤ n) {r m : ℝ} (hm : IsGreatest {l | IsEigenvalue (ofGraph g).L l} m)
    (hr : ∀ t, S.eigshLM t (ofGraph g).L = some r) (hrm : r ≤ m + 1 / 10 ^ 12) :
    ((ofGraph g).estimateLmax S .lanczos).1 = .ok () ∧ ((ofGraph g).estimateLmax S .lanczos).2.lmax = some (.fin (r * (101 / 100))) ∧
    ((1 - 99 / 10 ^ 4) * m ≤ r → ∀ l, IsEigenvalue (ofGraph g).L l → l ≤ r * (101 / 100)) := by
  obtain ⟨-, -, ⟨B, hB, hle⟩, hpsd, -⟩ := fresh hg hW (by omega)
  obtain ⟨h1, h2⟩ := (estimate_eq S hg hn hB (hr _)).1 (by have := hle m hm.1; linarith)
  refine ⟨h1, h2, fun h l hl => ?_⟩
  have h3 := hm.2 hl
  have h4 := eig_nonneg hpsd hm.1
  nlinarith

/-- **C144** FINDING: the tolerance of the assertion of `estimate_lmax` is absolute too, and there are graphs whose largest frequency equals the upper bound.  Whatever the relative accuracy `u` of
ARPACK, there is a connected graph (one edge) on which a value that is right up to `u` makes `estimate_lmax()` (hence `G.lmax` and the filters that use it) raise AssertionError.  With
`u = 2^-53` a weight of 4504 suffices.  After that `estimate_lmax()` returns at once and `G.lmax` is None. -/
theorem C144_lmax_violated {u w : ℝ} (hu : 0 < u) (hw : 1 / 10 ^ 12 < 2 * w * u) : ∃ (g : Graph 2 ℝ) (m : ℝ), g.Built ∧ NonnegW g.W.dense ∧ Connected g.W.dense ∧ (∀ i j, g.W.dense i j ≤ w) ∧
    IsGreatest {l | IsEigenvalue (ofGraph g).L l} m ∧ ∃ (S : Solvers 2) (r : ℝ), (∀ t, S.eigshLM t (ofGraph g).L = some r) ∧ |r - m| ≤ u * m ∧
      ((ofGraph g).estimateLmax S .lanczos).1 = .error .assertionError ∧ (((ofGraph g).estimateLmax S .lanczos).2.getLmax S).1 = .ok none := by
  have hw0 : 0 < w := by
    by_contra h
    have : 2 * w * u ≤ 0 := mul_nonpos_of_nonpos_of_nonneg (by linarith) hu.le
    have : (0 : ℝ) < 1 / 10 ^ 12 := by positivity
    linarith
  obtain ⟨g, hg, hd, hl, hW, hc, hL, hm, hB⟩ := exists_edge hw0
  obtain ⟨S, -⟩ := exists_sound 2
  let S' : Solvers 2 := { S with eigshLM := fun _ _ => some (2 * w * (1 + u)) }
  obtain ⟨h1, h2, h3⟩ := (estimate_eq S' hg le_rfl hB (r := 2 * w * (1 + u)) rfl).2 (by linarith)
  refine ⟨g, 2 * w, hg, hW, hc, ?_, hm, S', _, fun _ => rfl, ?_, h1, ?_⟩
  · rw [hd]; intro i j; fin_cases i <;> fin_cases j <;> simp [edge, hw0.le]
  · rw [show 2 * w * (1 + u) - 2 * w = u * (2 * w) by ring, abs_of_pos (by positivity)]
  · generalize ((ofGraph g).estimateLmax S' .lanczos).2 = s at h2 h3
    unfold getLmax
    rw [h2]
    dsimp only
    unfold estimateLmax
    rw [if_pos h3]
    dsimp only
    rw [h2]

/-- The hypotheses are met: an edge of weight one and an isolated vertex, with the unit roundoff of double precision. -/
example : ∃ g : Graph 3 ℝ, g.Built ∧ NonnegW g.W.dense ∧ ¬ Connected g.W.dense ∧ (ofGraph g).L ≠ 0 ∧ 1 / 2 ^ 53 * √(∑ i, ∑ j, (ofGraph g).L i j ^ 2) < 1 / 10 ^ 5 := by
  obtain ⟨g, hg, hd, hl⟩ := Graph.exists_built (K := ℝ) !![0, 1, 0; 1, 0, 0; 0, 0, 0]
  have hW : NonnegW g.W.dense := by
    rw [hd]; intro i j; fin_cases i <;> fin_cases j <;> simp
  have hL : (ofGraph g).L = !![1, -1, 0; -1, 1, 0; 0, 0, 0] := by
    have := (fresh hg hW (by norm_num)).2.1
    rw [hl, laplacian_comb, hd] at this
    rw [← Except.ok.inj this]
    ext i j
    fin_cases i <;> fin_cases j <;> simp [combLap, wdeg, wsym, Fin.sum_univ_three] <;> norm_num
  refine ⟨g, hg, hW, fun h => ?_, fun h => ?_, ?_⟩
  · have h2 : ∀ j, Linked g.W.dense 2 j → j = 2 := by
      intro j hj
      induction hj with
      | refl => rfl
      | tail _ hbc ih =>
        subst ih
        rw [hd] at hbc
        rename_i c _
        fin_cases c <;> simp at hbc ⊢
    have := h2 0 (h 2 0)
    simp at this
  · rw [hL] at h
    have := congrFun (congrFun h 0) 0
    simp at this
  · have : ∑ i, ∑ j, (ofGraph g).L i j ^ 2 = 2 ^ 2 := by
      rw [hL]; simp [Fin.sum_univ_three]; norm_num
    rw [this, Real.sqrt_sq (by norm_num)]
    norm_num


end PyGSP
